/-
Consequences of the refinement for a single object, phrased with `find` before and after a call.
-/
import Verif.Run

namespace Verif
open Spec (Call Ans)

/-- The objects a user can hold: constructed (with any initial capacity argument, 0 included), then put
through any history of valid public calls that returned or threw `bad_alloc`. -/
def Reachable {K V : Type} (L : Layout) (E : Env K) (walk : Table K V → Res (List (K × V))) (t : Table K V) : Prop :=
  ∃ mem n t0 ops as, construct L mem n = .ok t0 () ∧ (∀ op ∈ ops, Valid op.2) ∧
    run L E walk ops t0 = .ok (as, t)

namespace Spec
variable {K V : Type} {E : Env K}

theorem get_insert_other (m : Map K V) {k k' : K} (v : V) (h : E.eq k' k = false) :
    get E.eq (insert E.eq m k v) k' = get E.eq m k' := by
  unfold insert
  split
  · rfl
  · unfold get; simp [h]

theorem get_assign_other (hE : E.Lawful) (m : Map K V) {k k' : K} (v : V) (h : E.eq k' k = false) :
    get E.eq (assign E.eq m k v) k' = get E.eq m k' := by
  unfold assign
  split
  · unfold get
    induction m with
    | nil => rfl
    | cons a m ih =>
      by_cases hs : (get E.eq m k).isSome = true
      · rw [List.map_cons, List.find?_cons, List.find?_cons, ih hs]
        cases hq : E.eq k a.1 with
        | false => simp
        | true =>
          have : E.eq k' a.1 = false := by
            cases hq' : E.eq k' a.1 with
            | false => rfl
            | true => rw [hE.trans _ _ _ hq' (hE.symm _ _ hq)] at h; cases h
          simp [this]
      · have hmap : m.map (fun e => if E.eq k e.1 = true then (e.1, v) else e) = m := by
          conv_rhs => rw [← List.map_id m]
          apply List.map_congr_left
          intro b hb
          have hn : get E.eq m k = none := by
            cases hg : get E.eq m k with
            | none => rfl
            | some x => rw [hg] at hs; exact absurd rfl hs
          have := get_none_iff.mp hn b hb
          simp [this]
        rw [List.map_cons, List.find?_cons, List.find?_cons, hmap]
        cases hq : E.eq k a.1 with
        | false => simp
        | true =>
          have : E.eq k' a.1 = false := by
            cases hq' : E.eq k' a.1 with
            | false => rfl
            | true => rw [hE.trans _ _ _ hq' (hE.symm _ _ hq)] at h; cases h
          simp [this]
  · unfold get; simp [h]

theorem get_assign_self (hE : E.Lawful) {m : Map K V} {k : K} {e : K × V} (hd : Distinct E.eq m)
    (h : get E.eq m k = some e) (v : V) : get E.eq (assign E.eq m k v) k = some (e.1, v) := by
  obtain ⟨hm, hk⟩ := (get_some_iff hE hd).mp h
  obtain ⟨A, B, rfl⟩ := List.append_of_mem hm
  unfold assign
  rw [if_pos (by simp [h]), assign_at hE hd hk]
  rw [get_some_iff hE]
  · exact ⟨by simp, hk⟩
  · rw [Distinct, List.pairwise_append, List.pairwise_cons] at hd ⊢
    obtain ⟨h1, ⟨h2, h3⟩, h4⟩ := hd
    refine ⟨h1, ⟨h2, h3⟩, ?_⟩
    intro a ha b hb
    rcases List.mem_cons.mp hb with rfl | hb
    · exact h4 a ha e (by simp)
    · exact h4 a ha b (by simp [hb])

theorem get_erase_self (hE : E.Lawful) (m : Map K V) {k k' : K} (h : E.eq k k' = true) :
    get E.eq (erase E.eq m k) k' = none := by
  rw [get_none_iff]
  intro e he
  unfold erase at he
  rw [List.mem_filter] at he
  cases hq : E.eq k' e.1 with
  | false => rfl
  | true =>
    have := he.2
    rw [hE.trans _ _ _ h hq] at this
    cases this

theorem get_erase_other (hE : E.Lawful) (m : Map K V) {k k' : K} (h : E.eq k' k = false) :
    get E.eq (erase E.eq m k) k' = get E.eq m k' := by
  unfold get erase
  rw [List.find?_filter]
  congr 1
  funext e
  cases hq : E.eq k' e.1 with
  | false => simp
  | true =>
    have : E.eq k e.1 = false := by
      cases hq' : E.eq k e.1 with
      | false => rfl
      | true => rw [hE.trans _ _ _ hq (hE.symm _ _ hq')] at h; cases h
    simp [this]

theorem length_insert_absent {m : Map K V} {k : K} (h : get E.eq m k = none) (v : V) :
    (insert E.eq m k v).length = m.length + 1 := by rw [insert_absent h]; rfl

theorem length_assign (m : Map K V) (k : K) (v : V) :
    (assign E.eq m k v).length = m.length + (if (get E.eq m k).isSome then 0 else 1) := by
  unfold assign
  split <;> simp

theorem length_erase (hE : E.Lawful) {m : Map K V} (hd : Distinct E.eq m) {k : K} {e : K × V}
    (h : get E.eq m k = some e) : (erase E.eq m k).length + 1 = m.length := by
  obtain ⟨hm, hk⟩ := (get_some_iff hE hd).mp h
  obtain ⟨A, B, rfl⟩ := List.append_of_mem hm
  have hp : (A ++ e :: B).Perm (e :: (A ++ B)) := List.perm_middle
  rw [(erase_perm hE hd hp hk).length_eq]
  simp only [List.length_append, List.length_cons]; omega

end Spec

section
variable {K V : Type} {L : Layout} {H : Laws L} {E : Env K} {walk : Table K V → Res (List (K × V))}

theorem Reachable.inv (hE : E.Lawful) (hwalk : ∀ t : Table K V, Inv H E t → walk t = .ok (entries L t)) {t : Table K V}
    (h : Reachable L E walk t) : Inv H E t := by
  obtain ⟨mem, n, t0, ops, as, h0, hv, hr⟩ := h
  obtain ⟨hI0, he, _, _⟩ := construct_spec (H := H) (E := E) h0
  have := run_ok hE hwalk ops t0 [] hI0 (by rw [he]) hv
  rw [hr] at this
  exact this.1

theorem Reachable.step {t t' : Table K V}
    (h : Reachable L E walk t) {mem : Bool} {c : Call K V} (hv : Valid c)
    (hx : (∃ a, exec L E walk mem c t = .ok t' a) ∨ exec L E walk mem c t = .throw t') : Reachable L E walk t' := by
  obtain ⟨mem0, n, t0, ops, as, h0, hv0, hr⟩ := h
  have h1 : ∃ b, run L E walk [(mem, c)] t = .ok ([b], t') := by
    rcases hx with ⟨a, ha⟩ | ha
    · exact ⟨a, by simp [run, ha]⟩
    · exact ⟨.threw, by simp [run, ha]⟩
  obtain ⟨b, hb⟩ := h1
  refine ⟨mem0, n, t0, ops ++ [(mem, c)], as ++ [b], h0, ?_, ?_⟩
  · intro op hop
    rcases List.mem_append.mp hop with h | h
    · exact hv0 op h
    · simp only [List.mem_singleton] at h
      rw [h]; exact hv
  · rw [run_append, hr]
    simp only [Res.bind_ok, hb]

/-- One call from a reachable object, with the lookups before and after. -/
theorem Inv.step {t : Table K V} (hI : Inv H E t) (hE : E.Lawful)
    (hwalk : ∀ t : Table K V, Inv H E t → walk t = .ok (entries L t)) {mem : Bool} {c : Call K V} (hv : Valid c)
    {t' : Table K V} {a : Ans K V} (hx : exec L E walk mem c t = .ok t' a) :
    Inv H E t' ∧ ∃ m', Spec.Accepts E.eq (entries L t) c a m' ∧
      (∀ k, lookup L E t k = .ok (Spec.get E.eq (entries L t) k)) ∧
      (∀ k, lookup L E t' k = .ok (Spec.get E.eq m' k)) ∧ t.size = (entries L t).length ∧ t'.size = m'.length := by
  have h := hI.exec_ok hE hwalk (List.Perm.refl _) mem hv
  rw [hx] at h
  obtain ⟨h1, m', h2, h3⟩ := h
  refine ⟨h1, m', h2, fun k => hI.lookup_eq hE k, ?_, hI.size_eq, by rw [h1.size_eq, h3.length_eq]⟩
  intro k
  rw [h1.lookup_eq hE, Spec.get_perm hE h3 h1.pairwise]

theorem accepts_insert {m m' : Spec.Map K V} {k : K} {v : V} {a : Ans K V}
    (h : Spec.Accepts E.eq m (.insert k v) a m') (ha : a ≠ .threw) :
    ∃ e b, a = .elem e b ∧ m' = Spec.insert E.eq m k v ∧ Spec.get E.eq m' k = some e ∧ b = (Spec.get E.eq m k).isNone := by
  cases a with
  | elem e b => exact ⟨e, b, rfl, h.1, h.2.1, h.2.2⟩
  | threw => exact absurd rfl ha
  | _ => exact h.elim

theorem accepts_assign {m m' : Spec.Map K V} {k : K} {v : V} {a : Ans K V}
    (h : Spec.Accepts E.eq m (.assign k v) a m') (ha : a ≠ .threw) :
    ∃ e b, a = .elem e b ∧ m' = Spec.assign E.eq m k v ∧ Spec.get E.eq m' k = some e ∧ b = (Spec.get E.eq m k).isNone := by
  cases a with
  | elem e b => exact ⟨e, b, rfl, h.1, h.2.1, h.2.2⟩
  | threw => exact absurd rfl ha
  | _ => exact h.elim

theorem accepts_erase {m m' : Spec.Map K V} {k : K} {a : Ans K V}
    (h : Spec.Accepts E.eq m (.erase k) a m') :
    a = .num (if (Spec.get E.eq m k).isSome then 1 else 0) ∧ m' = Spec.erase E.eq m k := by
  cases a with
  | num n => exact ⟨by rw [h.2], h.1⟩
  | threw => cases h.1
  | _ => exact h.elim

/-- A call that returns normally does not answer `threw`. -/
theorem exec_ne_threw {t t' : Table K V} {mem : Bool} {c : Call K V} {a : Ans K V}
    (hx : exec L E walk mem c t = .ok t' a) : a ≠ .threw := by
  intro h
  subst h
  have hb : ∀ {α : Type} {r : Out (Table K V) α} {f : α → Ans K V} (hf : ∀ a, f a ≠ .threw),
      (r.bind fun t' a => Out.ok t' (f a)) = .ok t' .threw → False := by
    intro α r f hf h
    cases r <;> simp only [Out.bind, Out.ok.injEq, reduceCtorEq] at h
    exact hf _ h.2
  have hr : ∀ {α : Type} {r : Res α} {f : α → Ans K V} (hf : ∀ a, f a ≠ .threw),
      ((r.bind fun a => Res.ok (f a)).toOut t) = .ok t' .threw → False := by
    intro α r f hf h
    cases r <;> simp only [Res.bind, Res.toOut, Out.ok.injEq, reduceCtorEq] at h
    exact hf _ h.2
  have hre : ∀ {r : Out (Table K V) (Nat × Bool)}, r.bind readElem = .ok t' .threw → False := by
    intro r h
    cases r with
    | ok t a =>
      simp only [Out.bind_ok, readElem] at h
      cases hs : t.slot a.1 <;> rw [hs] at h <;> simp at h
    | _ => simp [Out.bind] at h
  have hrv : ∀ {r : Out (Table K V) (Nat × Bool)}, r.bind readValue = .ok t' .threw → False := by
    intro r h
    cases r with
    | ok t a =>
      simp only [Out.bind_ok, readValue] at h
      cases hs : t.slot a.1 <;> rw [hs] at h <;> simp at h
    | _ => simp [Out.bind] at h
  cases c with
  | insert k v => exact hre hx
  | assign k v => exact hre hx
  | index k v => exact hrv hx
  | find k => exact hr (fun a h => by cases h) hx
  | contains k => exact hr (fun a h => by cases h) hx
  | count k => exact hr (fun a h => by cases h) hx
  | «at» k => exact hr (fun a h => by cases h) hx
  | erase k => exact hb (fun a h => by cases h) hx
  | size => cases hx
  | empty => cases hx
  | clear d => exact hb (fun a h => by cases h) hx
  | reserve d =>
    simp only [exec] at hx
    split at hx
    · cases hx
    · exact hb (fun a h => by cases h) hx
  | rehash d =>
    simp only [exec] at hx
    split at hx
    · cases hx
    · exact hb (fun a h => by cases h) hx
  | shrink d => exact hb (fun a h => by cases h) hx
  | maxLoad d => exact hb (fun a h => by cases h) hx
  | iterate => exact hr (fun a h => by cases h) hx

/-! ### Generic forms of the per-call properties -/

theorem Inv.insert_api {t : Table K V} (hI : Inv H E t) (hE : E.Lawful)
    (hwalk : ∀ t : Table K V, Inv H E t → walk t = .ok (entries L t)) {mem : Bool} {k : K} {v : V}
    {t' : Table K V} {a : Ans K V} (hx : exec L E walk mem (.insert k v) t = .ok t' a) :
    (∃ e, lookup L E t k = .ok (some e) ∧ a = .elem e false ∧ t'.size = t.size ∧
        ∀ k', lookup L E t' k' = lookup L E t k') ∨
    (lookup L E t k = .ok none ∧ a = .elem (k, v) true ∧ t'.size = t.size + 1 ∧
        lookup L E t' k = .ok (some (k, v)) ∧
        ∀ k', E.eq k' k = false → lookup L E t' k' = lookup L E t k') := by
  obtain ⟨_, m', hacc, hl, hl', hs, hs'⟩ := hI.step hE hwalk (by trivial) hx
  obtain ⟨e, b, ha, hm', hg, hb⟩ := accepts_insert hacc (exec_ne_threw hx)
  cases hq : Spec.get E.eq (entries L t) k with
  | some e0 =>
    rw [Spec.insert_present hq] at hm'
    subst hm'
    rw [hq] at hg hb
    cases hg
    exact Or.inl ⟨e, by rw [hl, hq], by rw [ha, hb]; rfl, by rw [hs', hs], fun k' => by rw [hl', hl]⟩
  | none =>
    have hins := Spec.insert_absent (V := V) hq v
    rw [hins] at hm'
    subst hm'
    rw [Spec.get_cons_self hE] at hg
    cases hg
    refine Or.inr ⟨by rw [hl, hq], by rw [ha, hb, hq]; rfl, by rw [hs', hs]; rfl, by rw [hl', Spec.get_cons_self hE], ?_⟩
    intro k' hk'
    rw [hl', hl, ← hins, Spec.get_insert_other _ _ hk']

theorem Inv.assign_api {t : Table K V} (hI : Inv H E t) (hE : E.Lawful)
    (hwalk : ∀ t : Table K V, Inv H E t → walk t = .ok (entries L t)) {mem : Bool} {k : K} {v : V}
    {t' : Table K V} {a : Ans K V} (hx : exec L E walk mem (.assign k v) t = .ok t' a) :
    ((∃ e, lookup L E t k = .ok (some e) ∧ a = .elem (e.1, v) false ∧ t'.size = t.size ∧
        lookup L E t' k = .ok (some (e.1, v))) ∨
     (lookup L E t k = .ok none ∧ a = .elem (k, v) true ∧ t'.size = t.size + 1 ∧
        lookup L E t' k = .ok (some (k, v)))) ∧
    ∀ k', E.eq k' k = false → lookup L E t' k' = lookup L E t k' := by
  obtain ⟨_, m', hacc, hl, hl', hs, hs'⟩ := hI.step hE hwalk (by trivial) hx
  obtain ⟨e, b, ha, hm', hg, hb⟩ := accepts_assign hacc (exec_ne_threw hx)
  have hlen := Spec.length_assign (E := E) (entries L t) k v
  rw [← hm', ← hs', ← hs] at hlen
  refine ⟨?_, fun k' hk' => by rw [hl', hl, hm', Spec.get_assign_other hE _ _ hk']⟩
  cases hq : Spec.get E.eq (entries L t) k with
  | some e0 =>
    have h1 := Spec.get_assign_self hE hI.pairwise hq v
    rw [← hm', hg] at h1
    cases h1
    rw [hq] at hlen hb
    exact Or.inl ⟨e0, by rw [hl, hq], by rw [ha, hb]; rfl, hlen, by rw [hl', hg]⟩
  | none =>
    have h1 : m' = (k, v) :: entries L t := by
      rw [hm']; simp [Spec.assign, hq]
    rw [h1, Spec.get_cons_self hE] at hg
    cases hg
    rw [hq] at hlen hb
    exact Or.inr ⟨by rw [hl, hq], by rw [ha, hb]; rfl, hlen, by rw [hl', h1, Spec.get_cons_self hE]⟩

theorem Inv.erase_api {t : Table K V} (hI : Inv H E t) (hE : E.Lawful)
    (hwalk : ∀ t : Table K V, Inv H E t → walk t = .ok (entries L t)) {mem : Bool} {k : K}
    {t' : Table K V} {a : Ans K V} (hx : exec L E walk mem (.erase k) t = .ok t' a) :
    ((∃ e, lookup L E t k = .ok (some e) ∧ a = .num 1 ∧ t'.size + 1 = t.size) ∨
     (lookup L E t k = .ok none ∧ a = .num 0 ∧ t'.size = t.size)) ∧
    (∀ k', E.eq k k' = true → lookup L E t' k' = .ok none) ∧
    ∀ k', E.eq k' k = false → lookup L E t' k' = lookup L E t k' := by
  obtain ⟨_, m', hacc, hl, hl', hs, hs'⟩ := hI.step hE hwalk (by trivial) hx
  obtain ⟨ha, hm'⟩ := accepts_erase hacc
  subst hm'
  refine ⟨?_, fun k' hk' => by rw [hl', Spec.get_erase_self hE _ hk'],
    fun k' hk' => by rw [hl', hl, Spec.get_erase_other hE _ hk']⟩
  cases hq : Spec.get E.eq (entries L t) k with
  | some e0 =>
    have := Spec.length_erase hE hI.pairwise hq
    exact Or.inl ⟨e0, by rw [hl, hq], by rw [ha, hq]; rfl, by omega⟩
  | none =>
    have : Spec.erase E.eq (entries L t) k = entries L t := by
      unfold Spec.erase
      rw [List.filter_eq_self.mpr]
      intro b hb
      rw [Spec.get_none_iff.mp hq b hb]; rfl
    exact Or.inr ⟨by rw [hl, hq], by rw [ha, hq]; rfl, by rw [hs', hs, this]⟩

/-- Lookups always return, and erasing never fails. -/
theorem Inv.erase_total {t : Table K V} (hI : Inv H E t) (hE : E.Lawful) (mem : Bool) (k : K) :
    ∃ t' a, exec L E walk mem (.erase k) t = .ok t' a := by
  have hC := hI.erase_cases hE k
  simp only [exec]
  generalize eraseKey L E k t = r at hC
  cases hC with
  | absent hk => exact ⟨_, _, rfl⟩
  | removed g p e hp hi hk hI' hperm => exact ⟨_, _, rfl⟩

/-- A walk yields every element once. -/
theorem Inv.walk_api {t : Table K V} (hI : Inv H E t) (hE : E.Lawful)
    (hwalk : ∀ t : Table K V, Inv H E t → walk t = .ok (entries L t)) :
    ∃ l, walk t = .ok l ∧ l.length = t.size ∧ l.Pairwise (fun a b => E.eq a.1 b.1 = false) ∧
      ∀ e, e ∈ l ↔ lookup L E t e.1 = .ok (some e) := by
  refine ⟨_, hwalk t hI, hI.size_eq.symm, hI.pairwise, ?_⟩
  intro e
  rw [hI.lookup_eq hE, Res.ok.injEq, Spec.get_some_iff hE hI.pairwise]
  simp [hE.refl]

end
end Verif
