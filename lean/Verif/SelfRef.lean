/-
References into a group15/group16 map: arguments that refer to an element of the map itself (C105) and
references kept by the user across calls (C106).

A reference to the mapped value in slot `j` is the address of that slot, so it is modelled by the slot number.  A call
that reallocates installs a new block and frees the old one (T15:2109-2182, T16:1984-2046); a reference taken before is then
dangling.
-/
import Verif.Props15
import Verif.Props16

namespace Verif
open Spec (Call Ans)

set_option maxRecDepth 100000

section Model
variable {K V : Type} (L : Layout) (E : Env K)

/-- Reading through a reference to the mapped value in slot `j` that was taken when the map was `t`, at a moment
when the map is `t1`.  A block of another size is another block: the old one has been given back by `rehash_impl`
(T15:2109-2182, T16:1984-2046), so the read is undefined, as is reading a slot without a live element. -/
def valueAt (t t1 : Table K V) (j : Nat) : Res V :=
  if t1.ctrlCap L = t.ctrlCap L then
    match t1.slot j with
    | some e => .ok e.2
    | none => .ub
  else .ub

/-- `emplace_impl<AlwaysUpdate>(key, mapped)` and `try_emplace_impl(key, mapped)` (T15:2513-2761, T16:2337-2586) when `mapped` is a reference
to the mapped value in slot `j` of the same map: `find_or_insert(key)` runs first (T15:2393-2427, T16:2217-2251), the
forwarded reference is read by the constructor or the assignment after it. -/
def emplaceRef (update mem : Bool) (k : K) (j : Nat) (t : Table K V) : Out (Table K V) (Nat × Bool) :=
  (findOrInsert L E mem k t).bind fun t1 r =>
    let i := r.1.1 * L.S + r.1.2
    if r.2 then
      match valueAt L t t1 j with
      | .ok v => (constructAt L true i (k, v) t1).bind fun t2 _ => .ok t2 (i, true)
      | _ => .ub
    else if update then
      match t1.slot i, valueAt L t t1 j with
      | some e, .ok v => .ok { t1 with slot := upd t1.slot i (some (e.1, v)) } (i, false)
      | _, _ => .ub
    else .ok t1 (i, false)

/-- `m.insert_or_assign(k, it->second)` (`update`) or `m.emplace(k, it->second)`, `m.try_emplace(k, it->second)`, where `it` is the
iterator at slot `j` of `m` (T15:835-998, T16:783-946), with the element the returned iterator points at. -/
def execRef (update mem : Bool) (k : K) (j : Nat) (t : Table K V) : Out (Table K V) (Ans K V) :=
  (emplaceRef L E update mem k j t).bind readElem

end Model

/-- The key of the element a call may overwrite or remove. -/
def touched {K V : Type} : Call K V → Option K
  | .assign k _ => some k
  | .erase k => some k
  | _ => none

section
variable {K V : Type} {L : Layout} {H : Laws L} {E : Env K} {walk : Table K V → Res (List (K × V))}

theorem findEmptyLoop_frame {check : Bool} {tg : Nat} : ∀ (f : Nat) (pr : Prober) (t t' : Table K V) (r : Nat × Nat),
    findEmptyLoop L check tg f pr t = .ok t' r → t'.slot = t.slot ∧ t'.gmask = t.gmask ∧ t'.alloc = t.alloc
  | 0, _, _, _, _, h => by cases h
  | f + 1, pr, t, t', r, h => by
    unfold findEmptyLoop at h
    simp only at h
    split at h
    · split at h
      · cases h; exact ⟨rfl, rfl, rfl⟩
      · obtain ⟨h1, h2, h3⟩ := findEmptyLoop_frame f _ _ _ _ h
        exact ⟨h1, h2, h3⟩
    · cases h

theorem constructAt_frame {i : Nat} {e : K × V} {t t' : Table K V} (h : constructAt L true i e t = .ok t' ()) :
    t'.gmask = t.gmask ∧ t'.alloc = t.alloc := by
  unfold constructAt at h
  split at h
  · simp only [if_true] at h
    cases h; exact ⟨rfl, rfl⟩
  · cases h

/-- Two owning tables with the same capacity have the same number of groups. -/
theorem capacity_inj (H : Laws L) {t t' : Table K V} (h : t.alloc = true) (h' : t'.alloc = true) :
    t'.capacity L = t.capacity L ↔ t'.gmask = t.gmask := by
  unfold Table.capacity Table.slotCap
  rw [if_pos h, if_pos h']
  constructor
  · intro hc
    have e1 := H.slotCap_spec (t.gmask + 1) (by omega)
    have e2 := H.slotCap_spec (t'.gmask + 1) (by omega)
    have e3 : (t'.gmask + 1) * L.S = (t.gmask + 1) * L.S := by omega
    have := Nat.eq_of_mul_eq_mul_right H.S_pos e3
    omega
  · intro hc; rw [hc]

theorem ctrlCap_inj {t t' : Table K V} (h : t.alloc = true) (h' : t'.alloc = true) :
    t'.ctrlCap L = t.ctrlCap L ↔ t'.gmask = t.gmask := by
  unfold Table.ctrlCap
  rw [if_pos h, if_pos h']
  omega

/-- A reallocation changes the number of groups. -/
theorem InvA.moved_gmask {t t' : Table K V} (hI : InvA H E t) {k m : Nat} (hN : NewStore H E k m t')
    (h : 2 ^ k ≠ t.ctrlCap L) : t'.gmask ≠ t.gmask := by
  obtain ⟨j, h1, h2, h3, h4, _⟩ := hI.ctrlCap_eq
  intro hg
  apply h
  rw [h4]
  have := hN.gmask
  rw [hg, h3] at this
  have hp1 := Nat.two_pow_pos j
  have hp2 := Nat.two_pow_pos (k - 4)
  have : 2 ^ j = 2 ^ (k - 4) := by omega
  have := Nat.pow_right_injective (le_refl 2) this
  have := hN.k_ge
  congr 1; omega

/-- `find_or_insert` either leaves the slot array alone or has moved to another block. -/
theorem Inv.findOrInsert_frame {t t1 : Table K V} (hI : Inv H E t) (hE : E.Lawful) {j : Nat} {s : K × V} (hj : t.slot j = some s)
    {mem : Bool} {k : K} {r : (Nat × Nat) × Bool} (h : findOrInsert L E mem k t = .ok t1 r) :
    t1.alloc = true ∧ ((t1.slot = t.slot ∧ t1.gmask = t.gmask) ∨ (t1.gmask ≠ t.gmask ∧ r.2 = true)) := by
  have hA := hI.slot_lt hj
  unfold findOrInsert at h
  rcases hI.find_cases hE k with ⟨hf, hk⟩ | ⟨i, e, hi, hk, hf⟩
  · rw [hf] at h
    simp only at h
    by_cases hs : t.size ≥ t.thr
    · rw [if_pos hs] at h
      have hR := hI.rehashImpl_cases hE false mem (t.ctrlCap L * 2 % W)
      unfold grow at h
      generalize hr : rehashImpl L E false mem (t.ctrlCap L * 2 % W) t = q at hR h
      obtain ⟨c, hc1, hc2, hc3, hc4, hc5⟩ := grow_cap (t := t) hI
      cases hR with
      | ub _ => cases h
      | throw k' hk' hc' hh => cases h
      | same k' hk' hc' hh =>
        exfalso
        rw [hc3] at hc'
        simp only [Res.ok.injEq] at hc'
        simp only [Bool.false_eq_true, if_false] at hh
        omega
      | moved k' t2 hm hc' hh hN hp =>
        simp only [Out.bind_ok] at h
        simp only [Bool.false_eq_true, if_false] at hh
        cases hfe : findEmpty L E true k t2 with
        | ok t3 gp =>
          rw [hfe] at h
          cases h
          obtain ⟨f1, f2, f3⟩ := findEmptyLoop_frame _ _ _ _ _ hfe
          refine ⟨by rw [f3]; exact hN.inv.alloc, Or.inr ⟨?_, rfl⟩⟩
          rw [f2]
          exact hA.moved_gmask hN (by omega)
        | throw _ => rw [hfe] at h; cases h
        | diverge => rw [hfe] at h; cases h
        | ub => rw [hfe] at h; cases h
      | diverge _ _ _ _ _ _ => cases h
    · rw [if_neg hs] at h
      simp only [Out.bind_ok] at h
      cases hfe : findEmpty L E true k t with
      | ok t3 gp =>
        rw [hfe] at h
        cases h
        obtain ⟨f1, f2, f3⟩ := findEmptyLoop_frame _ _ _ _ _ hfe
        exact ⟨by rw [f3]; exact hA.alloc, Or.inl ⟨f1, f2⟩⟩
      | throw _ => rw [hfe] at h; cases h
      | diverge => rw [hfe] at h; cases h
      | ub => rw [hfe] at h; cases h
  · rw [hf] at h
    cases h
    exact ⟨hA.alloc, Or.inl ⟨rfl, rfl⟩⟩

/-- What a call with a reference to its own element does, in terms of the call with a copy of the value. -/
theorem Inv.emplaceRef_eq {t : Table K V} (hI : Inv H E t) (hE : E.Lawful) {j : Nat} {s : K × V} (hj : t.slot j = some s)
    (update mem : Bool) (k : K) :
    emplaceRef L E update mem k j t =
      match emplace L E update mem true k s.2 t with
      | .ok t' r => if t'.capacity L = t.capacity L then .ok t' r else .ub
      | o => o := by
  have hA := hI.slot_lt hj
  unfold emplaceRef emplace
  cases hf : findOrInsert L E mem k t with
  | throw _ => rfl
  | diverge => rfl
  | ub => rfl
  | ok t1 r =>
    obtain ⟨ha, h⟩ := hI.findOrInsert_frame hE hj hf
    simp only [Out.bind_ok]
    rcases h with ⟨h1, h2⟩ | ⟨h2, h3⟩
    · have hv : valueAt L t t1 j = .ok s.2 := by
        unfold valueAt
        rw [if_pos ((ctrlCap_inj hA.alloc ha).mpr h2), h1, hj]
      rw [hv]
      by_cases hr : r.2 = true
      · rw [if_pos hr, if_pos hr]
        simp only
        cases hc : constructAt L true (r.1.1 * L.S + r.1.2) (k, s.2) t1 with
        | ok t2 u =>
          obtain ⟨c1, c2⟩ := constructAt_frame hc
          simp only [Out.bind_ok]
          rw [if_pos ((capacity_inj H hA.alloc (c2.trans ha)).mpr (c1.trans h2))]
        | throw _ => rfl
        | diverge => rfl
        | ub => rfl
      · rw [if_neg hr, if_neg hr]
        cases update with
        | true =>
          simp only [if_true]
          cases hs : t1.slot (r.1.1 * L.S + r.1.2) with
          | none => rfl
          | some e =>
            simp only
            rw [if_pos]
            exact (capacity_inj H hA.alloc (t' := { t1 with slot := _ }) ha).mpr h2
        | false =>
          simp only [Bool.false_eq_true, if_false]
          rw [if_pos]
          exact (capacity_inj H hA.alloc ha).mpr h2
    · have hv : valueAt L t t1 j = .ub := by
        unfold valueAt
        rw [if_neg (fun hc => h2 ((ctrlCap_inj hA.alloc ha).mp hc))]
      rw [hv, if_pos h3, if_pos h3]
      simp only
      cases hc : constructAt L true (r.1.1 * L.S + r.1.2) (k, s.2) t1 with
      | ok t2 u =>
        obtain ⟨c1, c2⟩ := constructAt_frame hc
        simp only [Out.bind_ok]
        rw [if_neg]
        intro hcap
        exact h2 (c1 ▸ (capacity_inj H hA.alloc (c2.trans ha)).mp hcap)
      | throw _ =>
        unfold constructAt at hc
        split at hc
        · simp only [if_true] at hc; cases hc
        · cases hc
      | diverge =>
        unfold constructAt at hc
        split at hc
        · simp only [if_true] at hc; cases hc
        · cases hc
      | ub => rfl

/-- `rehash_impl` that leaves `capacity()` alone has not moved anything. -/
theorem Inv.rehash_stays {t t' : Table K V} (hI : Inv H E t) (hE : E.Lawful) {j : Nat} {s : K × V} (hj : t.slot j = some s)
    {shrink mem : Bool} {n : Nat} (hx : (∃ u, rehashImpl L E shrink mem n t = .ok t' u) ∨ rehashImpl L E shrink mem n t = .throw t')
    (hc : t'.capacity L = t.capacity L) : t' = t := by
  have hA := hI.slot_lt hj
  have hR := hI.rehashImpl_cases hE shrink mem n
  generalize rehashImpl L E shrink mem n t = o at hR hx
  cases hR with
  | ub h => rcases hx with ⟨u, hx⟩ | hx <;> cases hx
  | throw k hk hc' h => rcases hx with ⟨u, hx⟩ | hx <;> cases hx; rfl
  | same k hk hc' h => rcases hx with ⟨u, hx⟩ | hx <;> cases hx; rfl
  | moved k t2 hm hc' h hN hp =>
    exfalso
    have he : t' = t2 := by rcases hx with ⟨u, hx⟩ | hx <;> cases hx; rfl
    subst he
    refine hA.moved_gmask hN ?_ ((capacity_inj H hA.alloc hN.inv.alloc).mp hc)
    cases shrink
    · simp only [Bool.false_eq_true, if_false] at h; omega
    · simpa using h
  | diverge k hm hk hs hc' h => rcases hx with ⟨u, hx⟩ | hx <;> cases hx

theorem InvA.capacity_pos {t : Table K V} (hI : InvA H E t) : 0 < t.capacity L := by
  obtain ⟨j, h1, h2, h3, h4, _⟩ := hI.ctrlCap_eq
  unfold Table.capacity Table.slotCap
  rw [if_pos hI.alloc]
  have e1 := H.slotCap_spec (t.gmask + 1) (by omega)
  have e2 : 1 * 15 ≤ (t.gmask + 1) * L.S := Nat.mul_le_mul (by omega) H.S_ge
  split at e1 <;> omega

theorem Inv.destroy_moves {t t' : Table K V} (hI : Inv H E t) {j : Nat} {s : K × V} (hj : t.slot j = some s)
    (hx : (∃ u, destroy L t = .ok t' u) ∨ destroy L t = .throw t') : t'.capacity L ≠ t.capacity L := by
  have hA := (hI.slot_lt hj).capacity_pos
  rw [hI.destroy_eq] at hx
  have : t' = emptyTable L t.mlf := by rcases hx with ⟨u, hx⟩ | hx <;> cases hx; rfl
  rw [this]
  have : (emptyTable L t.mlf : Table K V).capacity L = 0 := rfl
  omega

theorem out_unit_split {σ α : Type} {o : Out σ Unit} {b : α} {t' : σ}
    (hx : (∃ a, (o.bind fun t' _ => .ok t' b) = .ok t' a) ∨ (o.bind fun t' _ => .ok t' b) = .throw t') :
    (∃ u, o = .ok t' u) ∨ o = .throw t' := by
  cases o with
  | ok s u =>
    rcases hx with ⟨a, hx⟩ | hx
    · simp only [Out.bind_ok, Out.ok.injEq] at hx
      exact Or.inl ⟨u, by rw [hx.1]⟩
    · cases hx
  | throw s =>
    rcases hx with ⟨a, hx⟩ | hx
    · cases hx
    · simp only [Out.bind_throw, Out.throw.injEq] at hx
      exact Or.inr (by rw [hx])
  | diverge => rcases hx with ⟨a, hx⟩ | hx <;> cases hx
  | ub => rcases hx with ⟨a, hx⟩ | hx <;> cases hx

/-- The table after a read-only call. -/
theorem toOut_same {α : Type} {t t' : Table K V} {r : Res α} (hx : (∃ a, r.toOut t = .ok t' a) ∨ r.toOut t = .throw t') : t' = t := by
  cases r <;> rcases hx with ⟨a, hx⟩ | hx <;> cases hx; rfl

/-- An insertion at unchanged capacity leaves every element in its slot, up to the mapped value of the element
addressed by the call. -/
theorem Inv.emplace_stays {t t' : Table K V} (hI : Inv H E t) (hE : E.Lawful) {i : Nat} {e : K × V} (hi : t.slot i = some e)
    {update mem : Bool} {k : K} {v : V}
    (hx : (∃ r, emplace L E update mem true k v t = .ok t' r) ∨ emplace L E update mem true k v t = .throw t')
    (hc : t'.capacity L = t.capacity L) :
    t'.slot i = some (if update = true ∧ E.eq k e.1 = true then (e.1, v) else e) := by
  have hA := hI.slot_lt hi
  have hC := hI.emplace_cases hE update mem k v
  generalize emplace L E update mem true k v t = o at hC hx
  cases hC with
  | found i' e' hi' hk =>
    have he : t' = if update then { t with slot := upd t.slot i' (some (e'.1, v)) } else t := by
      rcases hx with ⟨u, hx⟩ | hx
      · simp only [Out.ok.injEq] at hx; exact hx.1.symm
      · cases hx
    cases update with
    | false => rw [he]; simpa using hi
    | true =>
      rw [he]
      simp only [if_true, true_and]
      by_cases hii : i = i'
      · subst hii
        rw [hi] at hi'
        cases hi'
        rw [upd_self, if_pos hk]
      · rw [upd_other _ _ hii, hi, if_neg]
        intro hk'
        exact hii (hA.uniq i i' e e' hi hi' (hE.trans _ _ _ (hE.symm _ _ hk') hk))
  | throw hk hs h =>
    have he : t' = t := by rcases hx with ⟨u, hx⟩ | hx <;> cases hx; rfl
    rw [he, hi, if_neg]
    intro hq; rw [hk i e hi] at hq; cases hq.2
  | placed i' t2 hk hs hA' =>
    have he : t' = t2 := by rcases hx with ⟨u, hx⟩ | hx <;> cases hx; rfl
    subst he
    have hne : i ≠ i' := by
      intro hq; subst hq
      have := hA'.free
      rw [hi] at this; cases this
    rw [hA'.others i hne, hi, if_neg]
    intro hq; rw [hk i e hi] at hq; cases hq.2
  | grown i' t1 t2 hk hs hm c hc1 hN hp hA' hg =>
    exfalso
    have he : t' = t2 := by rcases hx with ⟨u, hx⟩ | hx <;> cases hx; rfl
    subst he
    have h1 := hA.moved_gmask hN (by omega)
    exact h1 (hA'.gmask ▸ (capacity_inj H hA.alloc hA'.inv.alloc).mp hc)
  | diverge hk hs hf => rcases hx with ⟨u, hx⟩ | hx <;> cases hx

theorem bind_readElem {o : Out (Table K V) (Nat × Bool)} {t' : Table K V}
    (hx : (∃ a, o.bind readElem = .ok t' a) ∨ o.bind readElem = .throw t') : (∃ r, o = .ok t' r) ∨ o = .throw t' := by
  cases o with
  | ok s r =>
    unfold readElem at hx
    simp only [Out.bind_ok] at hx
    split at hx
    · rcases hx with ⟨a, hx⟩ | hx <;> cases hx
    · rcases hx with ⟨a, hx⟩ | hx <;> cases hx
      exact Or.inl ⟨r, rfl⟩
  | throw s => rcases hx with ⟨a, hx⟩ | hx <;> cases hx; exact Or.inr rfl
  | diverge => rcases hx with ⟨a, hx⟩ | hx <;> cases hx
  | ub => rcases hx with ⟨a, hx⟩ | hx <;> cases hx

theorem bind_readValue {o : Out (Table K V) (Nat × Bool)} {t' : Table K V}
    (hx : (∃ a, o.bind readValue = .ok t' a) ∨ o.bind readValue = .throw t') : (∃ r, o = .ok t' r) ∨ o = .throw t' := by
  cases o with
  | ok s r =>
    unfold readValue at hx
    simp only [Out.bind_ok] at hx
    split at hx
    · rcases hx with ⟨a, hx⟩ | hx <;> cases hx
    · rcases hx with ⟨a, hx⟩ | hx <;> cases hx
      exact Or.inl ⟨r, rfl⟩
  | throw s => rcases hx with ⟨a, hx⟩ | hx <;> cases hx; exact Or.inr rfl
  | diverge => rcases hx with ⟨a, hx⟩ | hx <;> cases hx
  | ub => rcases hx with ⟨a, hx⟩ | hx <;> cases hx

/-- Every call that leaves `capacity()` alone, `clear` aside, leaves the elements it does not address in their slots. -/
theorem Inv.exec_stays {t t' : Table K V} (hI : Inv H E t) (hE : E.Lawful) {i : Nat} {e : K × V} (hi : t.slot i = some e)
    {mem : Bool} {c : Call K V} (hv : Valid c) (hcl : ∀ d, c ≠ .clear d) (hk : ∀ k, touched c = some k → E.eq k e.1 = false)
    (hx : (∃ a, exec L E walk mem c t = .ok t' a) ∨ exec L E walk mem c t = .throw t')
    (hc : t'.capacity L = t.capacity L) : t'.slot i = some e := by
  cases c with
  | insert k v =>
    have := hI.emplace_stays hE hi (bind_readElem hx) hc
    simpa using this
  | assign k v =>
    have := hI.emplace_stays hE hi (bind_readElem hx) hc
    rw [this, if_neg]
    intro hq; rw [hk k rfl] at hq; cases hq.2
  | index k d =>
    have := hI.emplace_stays hE hi (bind_readValue hx) hc
    simpa using this
  | find k => rw [toOut_same hx]; exact hi
  | contains k => rw [toOut_same hx]; exact hi
  | count k => rw [toOut_same hx]; exact hi
  | «at» k => rw [toOut_same hx]; exact hi
  | iterate => rw [toOut_same hx]; exact hi
  | size => rcases hx with ⟨a, hx⟩ | hx <;> cases hx; exact hi
  | empty => rcases hx with ⟨a, hx⟩ | hx <;> cases hx; exact hi
  | clear d => exact absurd rfl (hcl d)
  | erase k =>
    have hE' := hI.erase_cases hE k
    simp only [exec] at hx
    generalize eraseKey L E k t = o at hE' hx
    cases hE' with
    | absent hk' => rcases hx with ⟨a, hx⟩ | hx <;> cases hx; exact hi
    | removed g p e' hp hi' hk' hI' hperm =>
      have he : t' = InvA.erased L g p t := by rcases hx with ⟨a, hx⟩ | hx <;> cases hx; rfl
      rw [he]
      have hne : i ≠ g * L.S + p := by
        intro hq; subst hq
        rw [hi] at hi'; cases hi'
        rw [hk k rfl] at hk'; cases hk'
      show upd t.slot (g * L.S + p) none i = some e
      rw [upd_other _ _ hne]; exact hi
  | reserve n =>
    simp only [exec] at hx
    split at hx
    · rcases hx with ⟨a, hx⟩ | hx <;> cases hx
    · have hx := out_unit_split hx
      unfold reserve at hx
      split at hx
      · rw [hI.rehash_stays hE hi hx hc]; exact hi
      · exact absurd hc (hI.destroy_moves hi hx)
  | rehash n =>
    simp only [exec] at hx
    split at hx
    · rcases hx with ⟨a, hx⟩ | hx <;> cases hx
    · have hx := out_unit_split hx
      unfold rehash at hx
      simp only at hx
      split at hx
      · rw [hI.rehash_stays hE hi hx hc]; exact hi
      · exact absurd hc (hI.destroy_moves hi hx)
  | shrink ro =>
    simp only [exec] at hx
    have hx := out_unit_split hx
    unfold shrinkToFit at hx
    simp only at hx
    generalize (if ro = true then t.size else fitCapacity t.mlf t.size) = c at hx
    split at hx
    · rw [hI.rehash_stays hE hi hx hc]; exact hi
    · exact absurd hc (hI.destroy_moves hi hx)
  | maxLoad m =>
    simp only [exec] at hx
    have hx := out_unit_split hx
    unfold setMlf at hx
    simp only at hx
    have hIm := hI.set_mlf hv.1 hv.2
    split at hx
    · rcases hx with ⟨a, hx⟩ | hx <;> cases hx
    · rcases hx with ⟨a, hx⟩ | hx <;> cases hx
    · split at hx
      · unfold rehash at hx
        simp only at hx
        split at hx
        · rw [hIm.rehash_stays hE (j := i) (s := e) hi hx hc]; exact hi
        · exact absurd hc (hIm.destroy_moves (j := i) (s := e) hi hx)
      · rcases hx with ⟨a, hx⟩ | hx <;> cases hx; exact hi

/-- `insert_or_assign` or `insert` as a call of the ideal map. -/
def putCall {K V : Type} (update : Bool) (k : K) (v : V) : Call K V := if update then .assign k v else .insert k v

theorem Inv.execRef_eq {t : Table K V} (hI : Inv H E t) (hE : E.Lawful) {j : Nat} {s : K × V} (hj : t.slot j = some s)
    (update mem : Bool) (k : K) :
    execRef L E update mem k j t =
      match exec L E walk mem (putCall update k s.2) t with
      | .ok t' a => if t'.capacity L = t.capacity L then .ok t' a else .ub
      | o => o := by
  have he : exec L E walk mem (putCall update k s.2) t = (emplace L E update mem true k s.2 t).bind readElem := by
    cases update <;> rfl
  rw [he]
  unfold execRef
  rw [hI.emplaceRef_eq hE hj]
  cases emplace L E update mem true k s.2 t with
  | throw _ => rfl
  | diverge => rfl
  | ub => rfl
  | ok t' r =>
    simp only [Out.bind_ok]
    unfold readElem
    by_cases hc : t'.capacity L = t.capacity L
    · rw [if_pos hc]
      simp only [Out.bind_ok]
      cases t'.slot r.1 with
      | none => rfl
      | some e => simp only; rw [if_pos hc]
    · rw [if_neg hc]
      cases t'.slot r.1 with
      | none => rfl
      | some e => simp only; rw [if_neg hc]; rfl

end

section
variable {K V : Type} {E : Env K}

/-- C105, group15. `m.insert_or_assign(k, r)`, `m.emplace(k, r)` or `m.try_emplace(k, r)` where `r` refers to the mapped value of an element of `m`
itself: when the same call with a copy of the value returns without a change of `capacity()`, or throws, the call with the
reference does exactly the same.  The growing case is missing, see the next theorem. -/
theorem C105_reference_argument_partial (hE : E.Lawful) {t : Table K V} (ht : Reachable layout15 E walk15 t) {j : Nat} {s : K × V}
    (hj : t.slot j = some s) {update mem : Bool} {k : K} {t' : Table K V} :
    (∀ a, exec layout15 E walk15 mem (putCall update k s.2) t = .ok t' a → t'.capacity layout15 = t.capacity layout15 →
      execRef layout15 E update mem k j t = .ok t' a) ∧
    (exec layout15 E walk15 mem (putCall update k s.2) t = .throw t' → execRef layout15 E update mem k j t = .throw t') := by
  rw [(ht.inv hE (fun _ h => walk15_eq h)).execRef_eq (walk := walk15) hE hj update mem k]
  refine ⟨fun a hx hc => ?_, fun hx => ?_⟩
  · rw [hx]; simp only; rw [if_pos hc]
  · rw [hx]

/-- C105, group15, deviation. Whenever the same call with a copy of the value changes `capacity()`, the call with the reference reads
freed memory. -/
theorem C105_reference_argument_dangles (hE : E.Lawful) {t : Table K V} (ht : Reachable layout15 E walk15 t) {j : Nat} {s : K × V}
    (hj : t.slot j = some s) {update mem : Bool} {k : K} {t' : Table K V} {a : Ans K V}
    (hx : exec layout15 E walk15 mem (putCall update k s.2) t = .ok t' a) (hc : t'.capacity layout15 ≠ t.capacity layout15) :
    execRef layout15 E update mem k j t = .ub := by
  rw [(ht.inv hE (fun _ h => walk15_eq h)).execRef_eq (walk := walk15) hE hj update mem k, hx]
  simp only
  rw [if_neg hc]

/-- Both hypotheses hold on one object: replacing a present value does not reallocate, a new key does. -/
example : ∃ t : Table Nat Nat, Reachable layout15 modEnv walk15 t ∧ ((t.slot 1).isSome &&
    stepSat layout15 modEnv walk15 true (putCall true 5 9) (fun t' a => a == .elem (5, 9) false && t.capacity layout15 == t'.capacity layout15) t &&
    stepSat layout15 modEnv walk15 true (putCall false 90 9) (fun t' a => a == .elem (90, 9) true && t.capacity layout15 != t'.capacity layout15) t) = true :=
  exists_reachable 0 (insertsFrom 0 29) (fun t => (t.slot 1).isSome &&
    stepSat layout15 modEnv walk15 true (putCall true 5 9) (fun t' a => a == .elem (5, 9) false && t.capacity layout15 == t'.capacity layout15) t &&
    stepSat layout15 modEnv walk15 true (putCall false 90 9) (fun t' a => a == .elem (90, 9) true && t.capacity layout15 != t'.capacity layout15) t)
    (by decide +kernel)

/-- C106, group15. A call other than `clear` that does not change `capacity()` leaves every element it does not itself remove or
overwrite in its slot, unchanged, whether it returns or throws: references and iterators to it stay valid. -/
theorem C106_references_stay (hE : E.Lawful) {t t' : Table K V} (ht : Reachable layout15 E walk15 t) {i : Nat} {e : K × V}
    (hi : t.slot i = some e) {mem : Bool} {c : Call K V} (hv : Valid c) (hcl : ∀ d, c ≠ .clear d)
    (hk : ∀ k, touched c = some k → E.eq k e.1 = false)
    (hx : (∃ a, exec layout15 E walk15 mem c t = .ok t' a) ∨ exec layout15 E walk15 mem c t = .throw t')
    (hc : t'.capacity layout15 = t.capacity layout15) : t'.slot i = some e :=
  (ht.inv hE (fun _ h => walk15_eq h)).exec_stays hE hi hv hcl hk hx hc

/-- C106, group15. `insert_or_assign` of a present key writes the new value into the slot of the element, which keeps its key: references
to it show the new value. -/
theorem C106_assign_in_place (hE : E.Lawful) {t t' : Table K V} (ht : Reachable layout15 E walk15 t) {i : Nat} {e : K × V}
    (hi : t.slot i = some e) {mem : Bool} {k : K} {v : V} (hk : E.eq k e.1 = true) {a : Ans K V}
    (hx : exec layout15 E walk15 mem (.assign k v) t = .ok t' a) : t'.slot i = some (e.1, v) ∧ t'.capacity layout15 = t.capacity layout15 := by
  have hI := ht.inv hE (fun _ h => walk15_eq h)
  have hA := hI.slot_lt hi
  have hC := hI.emplace_cases hE true mem k v
  have hx : (emplace layout15 E true mem true k v t).bind readElem = .ok t' a := hx
  generalize emplace layout15 E true mem true k v t = o at hC hx
  cases hC with
  | found i' e' hi' hk' =>
    have hii : i = i' := hA.uniq i i' e e' hi hi' (hE.trans _ _ _ (hE.symm _ _ hk) hk')
    subst hii
    rw [hi] at hi'
    cases hi'
    simp only [if_true, Out.bind_ok, readElem, upd_self, Out.ok.injEq] at hx
    rw [← hx.1]
    exact ⟨upd_self _ _ _, rfl⟩
  | throw hk' hs h => cases hx
  | placed i' t2 hk' hs hA' => rw [hk' i e hi] at hk; cases hk
  | grown i' t1 t2 hk' hs hm c hc1 hN hp hA' hg => rw [hk' i e hi] at hk; cases hk
  | diverge hk' hs hf => cases hx

/-- An insertion, an erasure and a rehash that keep `capacity()`, and an assignment to a present key. -/
example : ∃ t : Table Nat Nat, Reachable layout15 modEnv walk15 t ∧ ((t.slot 1).isSome &&
    stepSat layout15 modEnv walk15 true (.insert 90 9) (fun t' _ => t.capacity layout15 == t'.capacity layout15) t &&
    stepSat layout15 modEnv walk15 true (.erase 5) (fun t' _ => t.capacity layout15 == t'.capacity layout15) t &&
    stepSat layout15 modEnv walk15 true (.rehash 20) (fun t' _ => t.capacity layout15 == t'.capacity layout15) t &&
    stepSat layout15 modEnv walk15 true (.assign 5 9) (fun _ a => a == .elem (5, 9) false) t) = true :=
  exists_reachable 0 (insertsFrom 0 20) (fun t => (t.slot 1).isSome &&
    stepSat layout15 modEnv walk15 true (.insert 90 9) (fun t' _ => t.capacity layout15 == t'.capacity layout15) t &&
    stepSat layout15 modEnv walk15 true (.erase 5) (fun t' _ => t.capacity layout15 == t'.capacity layout15) t &&
    stepSat layout15 modEnv walk15 true (.rehash 20) (fun t' _ => t.capacity layout15 == t'.capacity layout15) t &&
    stepSat layout15 modEnv walk15 true (.assign 5 9) (fun _ a => a == .elem (5, 9) false) t)
    (by decide +kernel)

/-- C105, group16. `m.insert_or_assign(k, r)`, `m.emplace(k, r)` or `m.try_emplace(k, r)` where `r` refers to the mapped value of an element of `m`
itself: when the same call with a copy of the value returns without a change of `capacity()`, or throws, the call with the
reference does exactly the same.  The growing case is missing, see the next theorem. -/
theorem C105_reference_argument16_partial {pad : Bool} (hE : E.Lawful) {t : Table K V} (ht : Reachable layout16 E (walk16 pad) t) {j : Nat} {s : K × V}
    (hj : t.slot j = some s) {update mem : Bool} {k : K} {t' : Table K V} :
    (∀ a, exec layout16 E (walk16 pad) mem (putCall update k s.2) t = .ok t' a → t'.capacity layout16 = t.capacity layout16 →
      execRef layout16 E update mem k j t = .ok t' a) ∧
    (exec layout16 E (walk16 pad) mem (putCall update k s.2) t = .throw t' → execRef layout16 E update mem k j t = .throw t') := by
  rw [(ht.inv hE (H := laws16) (fun _ h => walk16_eq h pad)).execRef_eq (walk := (walk16 pad)) hE hj update mem k]
  refine ⟨fun a hx hc => ?_, fun hx => ?_⟩
  · rw [hx]; simp only; rw [if_pos hc]
  · rw [hx]

/-- C105, group16, deviation. Whenever the same call with a copy of the value changes `capacity()`, the call with the reference reads
freed memory. -/
theorem C105_reference_argument_dangles16 {pad : Bool} (hE : E.Lawful) {t : Table K V} (ht : Reachable layout16 E (walk16 pad) t) {j : Nat} {s : K × V}
    (hj : t.slot j = some s) {update mem : Bool} {k : K} {t' : Table K V} {a : Ans K V}
    (hx : exec layout16 E (walk16 pad) mem (putCall update k s.2) t = .ok t' a) (hc : t'.capacity layout16 ≠ t.capacity layout16) :
    execRef layout16 E update mem k j t = .ub := by
  rw [(ht.inv hE (H := laws16) (fun _ h => walk16_eq h pad)).execRef_eq (walk := (walk16 pad)) hE hj update mem k, hx]
  simp only
  rw [if_neg hc]

/-- Both hypotheses hold on one object: replacing a present value does not reallocate, a new key does. -/
example : ∃ t : Table Nat Nat, Reachable layout16 modEnv (walk16 false) t ∧ ((t.slot 1).isSome &&
    stepSat layout16 modEnv (walk16 false) true (putCall true 5 9) (fun t' a => a == .elem (5, 9) false && t.capacity layout16 == t'.capacity layout16) t &&
    stepSat layout16 modEnv (walk16 false) true (putCall false 90 9) (fun t' a => a == .elem (90, 9) true && t.capacity layout16 != t'.capacity layout16) t) = true :=
  exists_reachable 0 (insertsFrom 0 32) (fun t => (t.slot 1).isSome &&
    stepSat layout16 modEnv (walk16 false) true (putCall true 5 9) (fun t' a => a == .elem (5, 9) false && t.capacity layout16 == t'.capacity layout16) t &&
    stepSat layout16 modEnv (walk16 false) true (putCall false 90 9) (fun t' a => a == .elem (90, 9) true && t.capacity layout16 != t'.capacity layout16) t)
    (by decide +kernel)

/-- C106, group16. A call other than `clear` that does not change `capacity()` leaves every element it does not itself remove or
overwrite in its slot, unchanged, whether it returns or throws: references and iterators to it stay valid. -/
theorem C106_references_stay16 {pad : Bool} (hE : E.Lawful) {t t' : Table K V} (ht : Reachable layout16 E (walk16 pad) t) {i : Nat} {e : K × V}
    (hi : t.slot i = some e) {mem : Bool} {c : Call K V} (hv : Valid c) (hcl : ∀ d, c ≠ .clear d)
    (hk : ∀ k, touched c = some k → E.eq k e.1 = false)
    (hx : (∃ a, exec layout16 E (walk16 pad) mem c t = .ok t' a) ∨ exec layout16 E (walk16 pad) mem c t = .throw t')
    (hc : t'.capacity layout16 = t.capacity layout16) : t'.slot i = some e :=
  (ht.inv hE (H := laws16) (fun _ h => walk16_eq h pad)).exec_stays hE hi hv hcl hk hx hc

/-- C106, group16. `insert_or_assign` of a present key writes the new value into the slot of the element, which keeps its key: references
to it show the new value. -/
theorem C106_assign_in_place16 {pad : Bool} (hE : E.Lawful) {t t' : Table K V} (ht : Reachable layout16 E (walk16 pad) t) {i : Nat} {e : K × V}
    (hi : t.slot i = some e) {mem : Bool} {k : K} {v : V} (hk : E.eq k e.1 = true) {a : Ans K V}
    (hx : exec layout16 E (walk16 pad) mem (.assign k v) t = .ok t' a) : t'.slot i = some (e.1, v) ∧ t'.capacity layout16 = t.capacity layout16 := by
  have hI := ht.inv hE (H := laws16) (fun _ h => walk16_eq h pad)
  have hA := hI.slot_lt hi
  have hC := hI.emplace_cases hE true mem k v
  have hx : (emplace layout16 E true mem true k v t).bind readElem = .ok t' a := hx
  generalize emplace layout16 E true mem true k v t = o at hC hx
  cases hC with
  | found i' e' hi' hk' =>
    have hii : i = i' := hA.uniq i i' e e' hi hi' (hE.trans _ _ _ (hE.symm _ _ hk) hk')
    subst hii
    rw [hi] at hi'
    cases hi'
    simp only [if_true, Out.bind_ok, readElem, upd_self, Out.ok.injEq] at hx
    rw [← hx.1]
    exact ⟨upd_self _ _ _, rfl⟩
  | throw hk' hs h => cases hx
  | placed i' t2 hk' hs hA' => rw [hk' i e hi] at hk; cases hk
  | grown i' t1 t2 hk' hs hm c hc1 hN hp hA' hg => rw [hk' i e hi] at hk; cases hk
  | diverge hk' hs hf => cases hx

/-- An insertion, an erasure and a rehash that keep `capacity()`, and an assignment to a present key. -/
example : ∃ t : Table Nat Nat, Reachable layout16 modEnv (walk16 false) t ∧ ((t.slot 1).isSome &&
    stepSat layout16 modEnv (walk16 false) true (.insert 90 9) (fun t' _ => t.capacity layout16 == t'.capacity layout16) t &&
    stepSat layout16 modEnv (walk16 false) true (.erase 5) (fun t' _ => t.capacity layout16 == t'.capacity layout16) t &&
    stepSat layout16 modEnv (walk16 false) true (.rehash 20) (fun t' _ => t.capacity layout16 == t'.capacity layout16) t &&
    stepSat layout16 modEnv (walk16 false) true (.assign 5 9) (fun _ a => a == .elem (5, 9) false) t) = true :=
  exists_reachable 0 (insertsFrom 0 20) (fun t => (t.slot 1).isSome &&
    stepSat layout16 modEnv (walk16 false) true (.insert 90 9) (fun t' _ => t.capacity layout16 == t'.capacity layout16) t &&
    stepSat layout16 modEnv (walk16 false) true (.erase 5) (fun t' _ => t.capacity layout16 == t'.capacity layout16) t &&
    stepSat layout16 modEnv (walk16 false) true (.rehash 20) (fun t' _ => t.capacity layout16 == t'.capacity layout16) t &&
    stepSat layout16 modEnv (walk16 false) true (.assign 5 9) (fun _ a => a == .elem (5, 9) false) t)
    (by decide +kernel)

end
end Verif
