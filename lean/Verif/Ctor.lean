/-
C10: insertions whose element constructor throws (emplace with `ctor = false`).
-/
import Verif.Props15

namespace Verif
open Spec (Call Ans)

set_option maxRecDepth 100000

section
variable {K V : Type} {L : Layout} {H : Laws L} {E : Env K}

theorem findEmptyLoop_slot (check : Bool) (tg : Nat) : ∀ (f : Nat) (pr : Prober) (t t' : Table K V) (gp : Nat × Nat),
    findEmptyLoop L check tg f pr t = .ok t' gp → t'.slot = t.slot := by
  intro f
  induction f with
  | zero => intro pr t t' gp h; cases h
  | succ f ih =>
    intro pr t t' gp h
    unfold findEmptyLoop at h
    simp only at h
    split at h
    · split at h
      · cases h; rfl
      · exact (ih _ _ _ _ h).trans rfl
    · cases h

/-- The table with one more constructed element. -/
def withElem (t : Table K V) (i s : Nat) (e : K × V) : Table K V :=
  { t with slot := upd t.slot i (some e), size := s }

theorem scanGroup_ub (t : Table K V) {i s : Nat} {e : K × V} (hi : t.slot i = none) (k : K) (base : Nat) : ∀ ps,
    scanGroup E t k base ps = .ub ∨ (scanGroup E t k base ps = scanGroup E (withElem t i s e) k base ps ∧
      ∀ p, scanGroup E (withElem t i s e) k base ps = .ok (some p) → base + p ≠ i) := by
  intro ps
  induction ps with
  | nil => exact Or.inr ⟨rfl, fun p h => by cases h⟩
  | cons p ps ih =>
    simp only [scanGroup]
    by_cases hp : base + p = i
    · rw [hp, hi]; exact Or.inl rfl
    · have hw : (withElem t i s e).slot (base + p) = t.slot (base + p) := upd_other _ _ hp
      rw [hw]
      cases t.slot (base + p) with
      | none => exact Or.inl rfl
      | some a =>
        simp only
        split
        · exact Or.inr ⟨rfl, fun q h => by cases h; exact hp⟩
        · exact ih

theorem findLoop_ub (t : Table K V) {i s : Nat} {e : K × V} (hi : t.slot i = none) (k : K) (tg : Nat) : ∀ f pr,
    findLoop L E t k tg f pr = .ub ∨ (findLoop L E t k tg f pr = findLoop L E (withElem t i s e) k tg f pr ∧
      ∀ g p, findLoop L E (withElem t i s e) k tg f pr = .ok (some (g, p)) → g * L.S + p ≠ i) := by
  intro f
  induction f with
  | zero => intro pr; exact Or.inr ⟨rfl, fun g p h => by cases h⟩
  | succ f ih =>
    intro pr
    unfold findLoop
    have hr : (withElem t i s e).readable pr.get = t.readable pr.get := rfl
    have hg : (withElem t i s e).grp = t.grp := rfl
    have hm : (withElem t i s e).gmask = t.gmask := rfl
    rw [hr, hg, hm]
    split
    · rcases scanGroup_ub (E := E) t (s := s) (e := e) hi k (pr.get * L.S) (bitsOf (L.matchHash (t.grp pr.get) tg)) with h | ⟨h1, h2⟩
      · rw [h]; exact Or.inl rfl
      · rw [h1]
        cases hs : scanGroup E (withElem t i s e) k (pr.get * L.S) (bitsOf (L.matchHash (t.grp pr.get) tg)) with
        | ub => exact Or.inl rfl
        | diverge => exact Or.inr ⟨rfl, fun g p h => by cases h⟩
        | ok o =>
          cases o with
          | some p => exact Or.inr ⟨rfl, fun g q h => by cases h; exact h2 p hs⟩
          | none =>
            simp only [Res.bind_ok]
            split
            · exact Or.inr ⟨rfl, fun g p h => by cases h⟩
            · split
              · exact ih _
              · exact Or.inr ⟨rfl, fun g p h => by cases h⟩
    · exact Or.inl rfl

/-- Whatever would be inserted: if the constructor throws instead, the control byte stays marked as used. -/
theorem Inv.ctor_throws {t : Table K V} (hI : Inv H E t) (hE : E.Lawful) {update mem : Bool} {k : K} {v : V}
    {t' : Table K V} {i : Nat} (hx : emplace L E update mem true k v t = .ok t' (i, true)) :
    ∃ t1, emplace L E update mem false k v t = .throw t1 ∧ lookup L E t1 k = .ub ∧ destroy L t1 = .ub := by
  have hC := hI.emplace_cases hE update mem k v
  rw [hx] at hC
  have key : ∃ t0, (t.size < t.thr → t0 = t) ∧ (t.thr ≤ t.size → grow L E mem t = .ok t0 ()) ∧
      ∃ t1 s, emplace L E update mem false k v t = .throw t1 ∧ t1.slot = t0.slot ∧ t' = withElem t1 i s (k, v) := by
    simp only [emplace, findOrInsert] at hx ⊢
    cases hf : find L E t k with
    | ub => rw [hf] at hx; cases hx
    | diverge => rw [hf] at hx; cases hx
    | ok o =>
      rw [hf] at hx
      cases o with
      | some gp =>
        exfalso
        simp only [Out.bind_ok, Bool.false_eq_true, if_false] at hx
        split at hx
        · split at hx <;> cases hx
        · cases hx
      | none =>
        simp only at hx ⊢
        have fin : ∀ t0 : Table K V,
            ((findEmpty L E true k t0).bind fun t2 gp => Out.ok t2 (gp, true)).bind (fun t1 r =>
              if r.2 = true then (constructAt L true (r.1.1 * L.S + r.1.2) (k, v) t1).bind fun t2 _ =>
                Out.ok t2 (r.1.1 * L.S + r.1.2, true)
              else if update = true then
                match t1.slot (r.1.1 * L.S + r.1.2) with
                | none => .ub
                | some e => .ok { t1 with slot := upd t1.slot (r.1.1 * L.S + r.1.2) (some (e.1, v)) } (r.1.1 * L.S + r.1.2, false)
              else .ok t1 (r.1.1 * L.S + r.1.2, false)) = .ok t' (i, true) →
            ∃ t1 s, ((findEmpty L E true k t0).bind fun t2 gp => Out.ok t2 (gp, true)).bind (fun t1 r =>
              if r.2 = true then (constructAt L false (r.1.1 * L.S + r.1.2) (k, v) t1).bind fun t2 _ =>
                Out.ok t2 (r.1.1 * L.S + r.1.2, true)
              else if update = true then
                match t1.slot (r.1.1 * L.S + r.1.2) with
                | none => .ub
                | some e => .ok { t1 with slot := upd t1.slot (r.1.1 * L.S + r.1.2) (some (e.1, v)) } (r.1.1 * L.S + r.1.2, false)
              else .ok t1 (r.1.1 * L.S + r.1.2, false)) = .throw t1 ∧ t1.slot = t0.slot ∧ t' = withElem t1 i s (k, v) := by
          intro t0 h
          cases hfe : findEmpty L E true k t0 with
          | ok t1 gp =>
            rw [hfe] at h
            simp only [Out.bind_ok, if_true, constructAt] at h ⊢
            split at h
            · rename_i ha
              rw [if_pos ha]
              cases h
              exact ⟨t1, _, rfl, findEmptyLoop_slot _ _ _ _ _ _ _ hfe, rfl⟩
            · cases h
          | _ => rw [hfe] at h; cases h
        by_cases hs : t.size ≥ t.thr
        · rw [if_pos hs] at hx
          simp only [if_pos hs]
          cases hg : grow L E mem t with
          | ok t0 u =>
            rw [hg] at hx
            exact ⟨t0, fun h => by omega, fun _ => rfl, fin t0 hx⟩
          | _ => rw [hg] at hx; cases hx
        · rw [if_neg hs] at hx
          simp only [if_neg hs]
          exact ⟨t, fun _ => rfl, fun h => by omega, fin t hx⟩
  obtain ⟨t0, hk1, hk2, t1, s, hthrow, hslot, ht'⟩ := key
  have hA : InvA H E t' ∧ t0.slot i = none ∧ t'.slot i = some (k, v) := by
    generalize hr : Out.ok t' (i, true) = o at hC
    cases hC with
    | found _ e hi hk => cases hr
    | throw hk hs h => cases hr
    | placed i' t'' hk hs hA =>
      cases hr
      rw [hk1 hs]
      exact ⟨hA.inv, hA.free, hA.at_i⟩
    | grown i' t2 t'' hk hs hm c hc hN hp hA hg =>
      cases hr
      have := hk2 hs
      rw [hg] at this
      cases this
      exact ⟨hA.inv, hA.free, hA.at_i⟩
    | diverge hk hs hfull => cases hr
  obtain ⟨hA, hfree, hat⟩ := hA
  rw [← hslot] at hfree
  refine ⟨t1, hthrow, ?_, ?_⟩
  · have hf := hA.find_some hE hat (hE.refl k)
    have h2 := findLoop_ub (L := L) (E := E) t1 (s := s) (e := (k, v)) hfree k (L.tag (E.h k)) (t1.gmask + 2)
      (Prober.mk0 (t1.home E k))
    have hf' : findLoop L E (withElem t1 i s (k, v)) k (L.tag (E.h k)) (t1.gmask + 2) (Prober.mk0 (t1.home E k))
        = .ok (some (i / L.S, i % L.S)) := by rw [ht'] at hf; exact hf
    have hub : find L E t1 k = .ub := by
      rcases h2 with h2 | ⟨_, h2⟩
      · exact h2
      · exact absurd (gp_eta i) (h2 _ _ hf')
    unfold lookup
    rw [hub]; rfl
  · have hm := hA.usedPos_map
    have hmem : some (k, v) ∈ (usedPos L t').map (fun gp => t'.slot (gp.1 * L.S + gp.2)) := by
      rw [hm]
      exact List.mem_map_of_mem (hA.mem_iff.mpr ⟨i, hat⟩)
    obtain ⟨gp, hgp, hs⟩ := List.mem_map.mp hmem
    have hi : gp.1 * L.S + gp.2 = i := hA.uniq _ _ _ _ hs hat (hE.refl k)
    have hu : usedPos L t' = usedPos L t1 := by rw [ht']; rfl
    have hal : t1.alloc = true := by
      have := hA.alloc
      rw [ht'] at this; exact this
    unfold destroy
    rw [if_neg]
    unfold Verif.destroyable
    rw [hal, Bool.not_true, Bool.false_or, List.all_eq_true]
    intro h
    have := h gp (by rw [← hu]; exact hgp)
    rw [hi, hfree] at this
    cases this

end

section
variable {K V : Type} {E : Env K}

/-- C10 (partial). A throwing constructor is harmless when nothing is inserted: if an equivalent key is present,
`insert` does not construct anything and leaves the object as it is.  Missing: the case where it does construct,
which is violated, see `C10_throwing_constructor_corrupts`. -/
theorem C10_throwing_constructor_partial {t : Table K V}
    (mem : Bool) {k : K} {e : K × V} (hk : lookup layout15 E t k = .ok (some e)) (v : V) :
    ∃ i, emplace layout15 E false mem false k v t = .ok t (i, false) ∧ t.slot i = some e := by
  unfold lookup at hk
  cases hf : find layout15 E t k with
  | ok o =>
    rw [hf] at hk
    cases o with
    | none => cases hk
    | some gp =>
      simp only [Res.bind_ok] at hk
      split at hk
      · cases hk
      · rename_i e' he
        cases hk
        refine ⟨_, ?_, he⟩
        simp only [emplace, findOrInsert, hf, Out.bind_ok, Bool.false_eq_true, if_false]
  | _ => rw [hf] at hk; cases hk

/-- Concrete object and key. -/
example : ∃ t : Table Nat Nat, Reachable layout15 modEnv walk15 t ∧
    (match lookup layout15 modEnv t 105 with | .ok (some (5, 5)) => true | _ => false) = true :=
  exists_reachable 0 (insertsFrom 0 29) (fun t => match lookup layout15 modEnv t 105 with | .ok (some (5, 5)) => true | _ => false)
    (by decide +kernel)

/-- C10 is violated, always: whenever an insertion would add an element and its constructor throws, the object is
left in a state where looking up the key, and even destroying the map, is undefined behaviour. -/
theorem C10_throwing_constructor_corrupts (hE : E.Lawful) {t : Table K V} (ht : Reachable layout15 E walk15 t)
    {update mem : Bool} {k : K} {v : V} {t' : Table K V} {i : Nat}
    (hx : emplace layout15 E update mem true k v t = .ok t' (i, true)) :
    ∃ t1, emplace layout15 E update mem false k v t = .throw t1 ∧ lookup layout15 E t1 k = .ub ∧
      exec layout15 E walk15 mem (.clear true) t1 = .ub := by
  obtain ⟨t1, h1, h2, h3⟩ := (ht.inv hE (H := laws15) (fun _ h => walk15_eq h)).ctor_throws hE hx
  exact ⟨t1, h1, h2, by simp only [exec, clear, if_true, h3]; rfl⟩

/-- Concrete object and key. -/
example : ∃ t : Table Nat Nat, Reachable layout15 modEnv walk15 t ∧
    (match emplace layout15 modEnv false true true 50 1 t with | .ok _ (_, true) => true | _ => false) = true :=
  exists_reachable 0 (insertsFrom 0 29)
    (fun t => match emplace layout15 modEnv false true true 50 1 t with | .ok _ (_, true) => true | _ => false)
    (by decide +kernel)

end
end Verif
