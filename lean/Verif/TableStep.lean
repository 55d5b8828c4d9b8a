/-
The whole-object invariant and, for every public operation, the complete list of its possible
outcomes.
-/
import Verif.TableRehash

namespace Verif

section
variable {K V : Type} {L : Layout} (H : Laws L) (E : Env K)

/-- Invariant of every reachable table: no storage at all, or storage satisfying `InvA`; the load factor
stays in the range enforced by `max_load_factor`. -/
structure Inv (t : Table K V) : Prop where
  mlf_lo : 128 ≤ t.mlf
  mlf_hi : t.mlf ≤ 224
  st : t = emptyTable L t.mlf ∨ InvA H E t

variable {H E}

theorem entries_empty (m : Nat) : entries L (emptyTable L m : Table K V) = [] := entries_none (fun _ => rfl)

theorem inv_empty {m : Nat} (h1 : 128 ≤ m) (h2 : m ≤ 224) : Inv H E (emptyTable L m : Table K V) :=
  ⟨h1, h2, Or.inl rfl⟩

theorem matchHash_none (g : Group) (x : Nat) (h : ∀ i, i < L.S → H.view g i ≠ .used (L.tag x)) :
    bitsOf (L.matchHash g (L.tag x)) = [] := by
  rw [List.eq_nil_iff_forall_not_mem]
  intro p hp
  obtain ⟨h1, h2⟩ := (mem_bits_matchHash H _ _ _).mp hp
  exact h p h1 h2

theorem find_empty (E : Env K) (H : Laws L) (m : Nat) (k : K) :
    find L E (emptyTable L m : Table K V) k = .ok none := by
  have hh : E.h k / 2 ^ 63 < 2 := by
    apply Nat.div_lt_of_lt_mul
    have : E.h k < W := Nat.mod_lt _ (by unfold W; positivity)
    unfold W at this; omega
  unfold find
  show findLoop L E _ k _ (0 + 2) _ = _
  unfold findLoop
  have hr : Table.readable (emptyTable L m : Table K V)
      (Prober.mk0 (Table.home E (emptyTable L m : Table K V) k)).get = true := by
    unfold Table.readable
    simp only [emptyTable, Prober.mk0, Prober.get, Table.home, Bool.false_eq_true, if_false]
    exact decide_eq_true hh
  rw [if_pos hr]
  have hb : bitsOf (L.matchHash ((emptyTable L m : Table K V).grp
      (Prober.mk0 (Table.home E (emptyTable L m : Table K V) k)).get) (L.tag (E.h k))) = [] :=
    matchHash_none (H := H) _ _ (fun i hi => H.static_not_used i _ hi)
  have ho : L.isOverflow ((emptyTable L m : Table K V).grp
      (Prober.mk0 (Table.home E (emptyTable L m : Table K V) k)).get) (L.tag (E.h k)) = false :=
    H.ovf_static _
  rw [hb]
  simp only [scanGroup, Res.bind_ok, ho, Bool.not_false, if_true]

namespace Inv
variable {t : Table K V}

theorem slot_lt (hI : Inv H E t) {i : Nat} {e : K × V} (h : t.slot i = some e) : InvA H E t := by
  rcases hI.st with h1 | h1
  · rw [h1] at h; cases h
  · exact h1

theorem mem_iff (hI : Inv H E t) {e : K × V} : e ∈ entries L t ↔ ∃ i, t.slot i = some e := by
  rcases hI.st with h1 | h1
  · rw [h1, entries_empty]; simp [emptyTable]
  · exact h1.mem_iff

theorem size_eq (hI : Inv H E t) : t.size = (entries L t).length := by
  rcases hI.st with h1 | h1
  · rw [h1, entries_empty]; rfl
  · exact h1.size

theorem pairwise (hI : Inv H E t) : (entries L t).Pairwise (fun a b => E.eq a.1 b.1 = false) := by
  rcases hI.st with h1 | h1
  · rw [h1, entries_empty]; exact List.Pairwise.nil
  · exact h1.pairwise

theorem find_some (hI : Inv H E t) (hE : E.Lawful) {i : Nat} {e : K × V} {k : K}
    (hi : t.slot i = some e) (hk : E.eq k e.1 = true) :
    find L E t k = .ok (some (i / L.S, i % L.S)) := (hI.slot_lt hi).find_some hE hi hk

theorem find_none (hI : Inv H E t) {k : K}
    (hk : ∀ i e, t.slot i = some e → E.eq k e.1 = false) : find L E t k = .ok none := by
  rcases hI.st with h1 | h1
  · rw [h1]; exact find_empty E H _ k
  · exact h1.find_none hk

/-- Every lookup ends in one of two ways. -/
theorem find_cases (hI : Inv H E t) (hE : E.Lawful) (k : K) :
    (find L E t k = .ok none ∧ ∀ i e, t.slot i = some e → E.eq k e.1 = false) ∨
    ∃ i e, t.slot i = some e ∧ E.eq k e.1 = true ∧ find L E t k = .ok (some (i / L.S, i % L.S)) := by
  by_cases h : ∃ i e, t.slot i = some e ∧ E.eq k e.1 = true
  · obtain ⟨i, e, h1, h2⟩ := h
    exact Or.inr ⟨i, e, h1, h2, hI.find_some hE h1 h2⟩
  · have h' : ∀ i e, t.slot i = some e → E.eq k e.1 = false := by
      intro i e h1
      cases hq : E.eq k e.1 with
      | false => rfl
      | true => exact absurd ⟨i, e, h1, hq⟩ h
    exact Or.inl ⟨hI.find_none h', h'⟩

end Inv

/-! ### Rehash -/

/-- Table `t'` lives in storage newly allocated with `2^k` control positions. -/
structure NewStore (H : Laws L) (E : Env K) (k m : Nat) (t' : Table K V) : Prop where
  k_ge : 5 ≤ k
  k_le : k ≤ 55
  inv : InvA H E t'
  fresh : Fresh H t'
  gmask : t'.gmask = 2 ^ (k - 4) - 1
  mlf : t'.mlf = m
  thr : t'.thr = calcThr m (L.slotCap (2 ^ (k - 4)))

/-- All outcomes of `rehash_impl`. -/
inductive RehashCase (H : Laws L) (E : Env K) (t : Table K V) (shrink mem : Bool) (n : Nat) :
    Out (Table K V) Unit → Prop
  | ub (h : 2 ^ 63 < n) : RehashCase H E t shrink mem n .ub
  | throw (k : Nat) (hk : 5 ≤ k) (hc : calcCapacity t.size n = .ok (2 ^ k)) (h : mem = false ∨ 55 < k) :
      RehashCase H E t shrink mem n (.throw t)
  | same (k : Nat) (hk : 5 ≤ k) (hc : calcCapacity t.size n = .ok (2 ^ k))
      (h : if shrink then 2 ^ k = t.ctrlCap L else 2 ^ k ≤ t.ctrlCap L) :
      RehashCase H E t shrink mem n (.ok t ())
  | moved (k : Nat) (t' : Table K V) (hm : mem = true) (hc : calcCapacity t.size n = .ok (2 ^ k))
      (h : if shrink then 2 ^ k ≠ t.ctrlCap L else t.ctrlCap L < 2 ^ k)
      (hN : NewStore H E k t.mlf t') (hp : (entries L t').Perm (entries L t)) :
      RehashCase H E t shrink mem n (.ok t' ())
  | diverge (k : Nat) (hm : mem = true) (hk : k ≤ 55) (hs : shrink = true)
      (hc : calcCapacity t.size n = .ok (2 ^ k))
      (h : L.slotCap (2 ^ (k - 4)) < t.size) : RehashCase H E t shrink mem n .diverge

theorem InvA.ctrlCap_eq {t : Table K V} (hI : InvA H E t) :
    ∃ j, 1 ≤ j ∧ j ≤ 51 ∧ t.gmask = 2 ^ j - 1 ∧ t.ctrlCap L = 2 ^ (j + 4) ∧
      t.size ≤ 2 ^ (j + 4) := by
  obtain ⟨j, h1, h2, h3, _⟩ := hI.geom
  have hc : t.ctrlCap L = 2 ^ (j + 4) := by
    unfold Table.ctrlCap
    rw [if_pos hI.alloc, h3, pow_sub_add, Nat.pow_add]
  refine ⟨j, h1, h2, h3, hc, ?_⟩
  have h4 : (entries L t).length ≤ _ := entries_length_le (t := t)
  rw [hI.size]
  refine h4.trans ?_
  rw [h3, pow_sub_add, Nat.pow_add]
  exact Nat.mul_le_mul_left _ H.S_le

theorem Inv.size_le {t : Table K V} (hI : Inv H E t) : t.size ≤ 2 ^ 55 := by
  rcases hI.st with h1 | h1
  · rw [h1]; simp [emptyTable]
  · obtain ⟨j, _, hj, _, _, h⟩ := h1.ctrlCap_eq
    exact h.trans (Nat.pow_le_pow_right (by decide) (by omega))

theorem Inv.rehashImpl_cases {t : Table K V} (hI : Inv H E t) (hE : E.Lawful) (shrink mem : Bool) (n : Nat) :
    RehashCase H E t shrink mem n (rehashImpl L E shrink mem n t) := by
  have hsz := hI.size_le
  unfold rehashImpl
  cases hc : calcCapacity t.size n with
  | diverge => exact absurd hc calcCapacity_diverge
  | ub =>
    rcases calcCapacity_ub hc with h | h
    · exact .ub h
    · omega
  | ok cap =>
    obtain ⟨k, rfl, hk5, hkn, hks, hkm⟩ := calcCapacity_ok hc
    simp only
    by_cases hcond : ((!shrink && decide (2 ^ k > t.ctrlCap L)) ||
        (shrink && decide (2 ^ k ≠ t.ctrlCap L))) = true
    · rw [if_pos hcond]
      have hcond' : if shrink then 2 ^ k ≠ t.ctrlCap L else t.ctrlCap L < 2 ^ k := by
        cases shrink <;> simpa using hcond
      rw [createSlots_ok hk5]
      by_cases hm : mem = true ∧ k ≤ 55
      · rw [if_pos hm]
        simp only [Out.bind_ok]
        obtain ⟨hI1, hF1⟩ := freshTable_inv (H := H) (E := E) (V := V) (mlf := t.mlf) hk5 hm.2
        have hN1 : NewStore H E k t.mlf (freshTable L k t.mlf : Table K V) :=
          ⟨hk5, hm.2, hI1, hF1, rfl, rfl, rfl⟩
        rcases hI.st with h1 | h1
        · have ha : t.alloc = false := by rw [h1]; rfl
          rw [if_neg (by simp [ha])]
          refine .moved k _ hm.1 hc hcond' hN1 ?_
          rw [freshTable_entries, h1, entries_empty]
        · rw [if_pos h1.alloc]
          by_cases hfit : t.size ≤ L.slotCap (2 ^ (k - 4))
          · obtain ⟨t2, h2, hI2, hF2, hp2, hg2⟩ := transferAll_ok hE t (usedPos L t) (entries L t) _
              h1.usedPos_map hI1 hF1 h1.pairwise
              (by intro e _ a ha; rw [freshTable_entries] at ha; simp at ha)
              (by
                have : (freshTable L k t.mlf : Table K V).slotCap L = L.slotCap (2 ^ (k - 4)) := by
                  unfold Table.slotCap freshTable; simp only [pow_sub_add]
                rw [this, ← h1.size]
                show 0 + t.size ≤ _
                omega)
            rw [h2]
            refine .moved k _ hm.1 hc hcond' ⟨hk5, hm.2, hI2, hF2, hg2.gmask, hg2.mlf, hg2.thr⟩ ?_
            rw [freshTable_entries, List.append_nil] at hp2
            exact hp2
          · have hd := transferAll_diverge hE t (usedPos L t) (entries L t) _
              h1.usedPos_map hI1 hF1 h1.pairwise
              (by intro e _ a ha; rw [freshTable_entries] at ha; simp at ha)
              (by
                have : (freshTable L k t.mlf : Table K V).slotCap L = L.slotCap (2 ^ (k - 4)) := by
                  unfold Table.slotCap freshTable; simp only [pow_sub_add]
                rw [this, ← h1.size]
                show _ < 0 + t.size
                omega)
            rw [hd]
            refine .diverge k hm.1 hm.2 ?_ hc (by omega)
            by_contra hs
            have hs : shrink = false := by simpa using hs
            rw [hs] at hcond'
            simp only [Bool.false_eq_true, if_false] at hcond'
            obtain ⟨j, hj1, hj2, hj3, hj4, _⟩ := h1.ctrlCap_eq
            rw [hj4] at hcond'
            have hjk : j + 4 < k := (Nat.pow_lt_pow_iff_right (by decide)).mp hcond'
            have hs2 := h1.size_le_slotCap
            have e1 := slotCap_pos (H := H) t
            have e2 := H.slotCap_spec (2 ^ (k - 4)) (Nat.two_pow_pos _)
            have e3 : 2 * 2 ^ j ≤ 2 ^ (k - 4) := by
              rw [← Nat.pow_succ']; exact Nat.pow_le_pow_right (by decide) (by omega)
            have e4 : 2 * 2 ^ j * L.S ≤ 2 ^ (k - 4) * L.S := Nat.mul_le_mul_right _ e3
            rw [hj3, pow_sub_add] at e1
            have e5 : 2 * 2 ^ j * L.S = 2 ^ j * L.S + 2 ^ j * L.S := by rw [Nat.mul_assoc]; omega
            have e6 : 0 < 2 ^ j * L.S := Nat.mul_pos (Nat.two_pow_pos _) H.S_pos
            split at e2 <;> omega
      · rw [if_neg hm]
        refine .throw k hk5 hc ?_
        by_cases hmem : mem = true
        · right; by_contra hq; exact hm ⟨hmem, by omega⟩
        · left; simpa using hmem
    · rw [if_neg hcond]
      refine .same k hk5 hc ?_
      cases shrink
      · simpa using hcond
      · simpa using hcond

/-! ### Insertion -/

/-- The slot array after an insertion into `t1` at `i`. -/
structure Added (H : Laws L) (E : Env K) (k : K) (v : V) (t1 t' : Table K V) (i : Nat) : Prop where
  inv : InvA H E t'
  at_i : t'.slot i = some (k, v)
  free : t1.slot i = none
  others : ∀ j, j ≠ i → t'.slot j = t1.slot j
  gmask : t'.gmask = t1.gmask
  mlf : t'.mlf = t1.mlf
  size : t'.size = t1.size + 1
  perm : (entries L t').Perm ((k, v) :: entries L t1)
  thr : t'.thr = t1.thr ∨ (L.bump = true ∧ t'.thr = (t1.thr + 1) % W)
  fresh : Fresh H t1 → Fresh H t' ∧ t'.thr = t1.thr ∧ ∀ y, L.isOverflow (t'.grp (i / L.S)) y = false

/-- All outcomes of `emplace_impl` for a non-throwing element constructor. -/
inductive EmplaceCase (H : Laws L) (E : Env K) (t : Table K V) (update mem : Bool) (k : K) (v : V) :
    Out (Table K V) (Nat × Bool) → Prop
  | found (i : Nat) (e : K × V) (hi : t.slot i = some e) (hk : E.eq k e.1 = true) :
      EmplaceCase H E t update mem k v
        (.ok (if update then { t with slot := upd t.slot i (some (e.1, v)) } else t) (i, false))
  | throw (hk : ∀ i e, t.slot i = some e → E.eq k e.1 = false) (hs : t.thr ≤ t.size)
      (h : mem = false ∨ 2 ^ 55 < max 32 (2 * t.ctrlCap L)) : EmplaceCase H E t update mem k v (.throw t)
  | placed (i : Nat) (t' : Table K V) (hk : ∀ i e, t.slot i = some e → E.eq k e.1 = false)
      (hs : t.size < t.thr) (hA : Added H E k v t t' i) : EmplaceCase H E t update mem k v (.ok t' (i, true))
  | grown (i : Nat) (t1 t' : Table K V) (hk : ∀ i e, t.slot i = some e → E.eq k e.1 = false)
      (hs : t.thr ≤ t.size) (hm : mem = true) (c : Nat) (hc : 2 ^ c = max 32 (2 * t.ctrlCap L))
      (hN : NewStore H E c t.mlf t1) (hp : (entries L t1).Perm (entries L t))
      (hA : Added H E k v t1 t' i) (hg : grow L E mem t = .ok t1 ()) :
      EmplaceCase H E t update mem k v (.ok t' (i, true))
  | diverge (hk : ∀ i e, t.slot i = some e → E.eq k e.1 = false) (hs : t.size < t.thr)
      (hfull : t.size = t.slotCap L) : EmplaceCase H E t update mem k v .diverge

theorem InvA.add {t : Table K V} (hI : InvA H E t) (hE : E.Lawful) {k : K}
    (hk : ∀ i e, t.slot i = some e → E.eq k e.1 = false) (v : V) (hs : t.size < t.slotCap L) :
    ∃ t' i, ((findEmpty L E true k t).bind fun t2 gp => 
        (Out.ok t2 (gp, true) : Out (Table K V) ((Nat × Nat) × Bool))).bind
        (fun t1 r => (constructAt L true (r.1.1 * L.S + r.1.2) (k, v) t1).bind fun t2 _ =>
          Out.ok t2 (r.1.1 * L.S + r.1.2, true)) = .ok t' (i, true) ∧ Added H E k v t t' i := by
  obtain ⟨t1, g, p, h1, hP⟩ := hI.findEmpty_ok true k hs
  obtain ⟨t2, h2, h3, h4, h5, h6⟩ := hI.insert hE hP hk v
  refine ⟨t2, g * L.S + p, ?_, ?_⟩
  · rw [h1]
    simp only [Out.bind_ok]
    rw [h2]; rfl
  · subst h3
    refine
      { inv := h5, at_i := upd_self _ _ _, free := h4, others := fun j hj => upd_other _ _ hj
        gmask := hP.gmask, mlf := hP.mlf, size := rfl, perm := h6, thr := ?_, fresh := ?_ }
    · rcases hP.thr with h | ⟨_, h7, _, h8⟩
      · exact Or.inl h
      · exact Or.inr ⟨h7, h8⟩
    · intro hF
      have hthr : t1.thr = t.thr := hF.place_thr hP
      have hfr : Fresh H t1 := hF.placed hP
      refine ⟨hfr, hthr, ?_⟩
      intro y
      rw [gp_div hP.p_lt]
      exact hF.place_ovf hP y

theorem isPow2_pow (k : Nat) : isPow2 (2 ^ k) = true := (isPow2_iff (by positivity)).mpr ⟨k, rfl⟩

/-- The capacity requested by `grow_if_necessary`. -/
theorem grow_cap {t : Table K V} (hI : Inv H E t) :
    ∃ c, 2 ^ c = max 32 (2 * t.ctrlCap L) ∧ 5 ≤ c ∧
      calcCapacity t.size (t.ctrlCap L * 2 % W) = .ok (2 ^ c) ∧ t.ctrlCap L < 2 ^ c ∧ c ≤ 56 := by
  rcases hI.st with h1 | h1
  · have hcc : t.ctrlCap L = L.ctrlCap0 := by rw [h1]; rfl
    have hle := H.ctrlCap0_le
    have hsz : t.size = 0 := by rw [h1]; rfl
    refine ⟨5, by rw [hcc]; omega, by omega, ?_, by rw [hcc]; omega, by omega⟩
    have : t.ctrlCap L * 2 % W = t.ctrlCap L * 2 := Nat.mod_eq_of_lt (by unfold W; rw [hcc]; omega)
    rw [this, hsz, hcc]
    unfold calcCapacity
    have : max (max (L.ctrlCap0 * 2) 32) 0 = 32 := by omega
    simp only [this]
    rfl
  · obtain ⟨j, hj1, hj2, hj3, hj4, hj5⟩ := h1.ctrlCap_eq
    have e1 : 2 ^ (j + 4) * 2 = 2 ^ (j + 5) := by rw [← Nat.pow_succ]
    have e2 : 2 ^ 6 ≤ 2 ^ (j + 5) := Nat.pow_le_pow_right (by decide) (by omega)
    have e3 : 2 ^ (j + 5) < W := by
      unfold W; exact Nat.pow_lt_pow_right (by decide) (by omega)
    refine ⟨j + 5, by rw [hj4]; omega, by omega, ?_, by rw [hj4]; omega, by omega⟩
    rw [hj4, e1, Nat.mod_eq_of_lt e3]
    unfold calcCapacity
    have : max (max (2 ^ (j + 5)) 32) t.size = 2 ^ (j + 5) := by omega
    simp only [this, isPow2_pow, if_true]

theorem Inv.emplace_cases {t : Table K V} (hI : Inv H E t) (hE : E.Lawful) (update mem : Bool) (k : K) (v : V) :
    EmplaceCase H E t update mem k v (emplace L E update mem true k v t) := by
  unfold emplace findOrInsert
  rcases hI.find_cases hE k with ⟨hf, hk⟩ | ⟨i, e, hi, hk, hf⟩
  · rw [hf]
    simp only
    by_cases hs : t.size ≥ t.thr
    · rw [if_pos hs]
      obtain ⟨c, hc1, hc2, hc3, hc4, hc5⟩ := grow_cap (t := t) hI
      have hR := hI.rehashImpl_cases hE false mem (t.ctrlCap L * 2 % W)
      unfold grow
      generalize hr : rehashImpl L E false mem (t.ctrlCap L * 2 % W) t = r at hR
      cases hR with
      | ub h =>
        exfalso
        have : t.ctrlCap L * 2 ≤ 2 ^ 56 := by
          have : 2 * t.ctrlCap L ≤ 2 ^ c := by omega
          have h2 : 2 ^ c ≤ 2 ^ 56 := Nat.pow_le_pow_right (by decide) hc5
          omega
        rw [Nat.mod_eq_of_lt (by unfold W; omega)] at h; omega
      | throw k' hk' hc' h =>
        refine .throw hk hs ?_
        rw [hc3] at hc'
        simp only [Res.ok.injEq] at hc'
        rcases h with h | h
        · exact Or.inl h
        · right
          rw [← hc1, hc']
          exact Nat.pow_lt_pow_right (by decide) h
      | same k' hk' hc' h =>
        exfalso
        rw [hc3] at hc'
        simp only [Res.ok.injEq] at hc'
        simp only [Bool.false_eq_true, if_false] at h
        omega
      | moved k' t1 hm hc' h hN hp =>
        have hcc : c = k' := by
          rw [hc3] at hc'
          simp only [Res.ok.injEq] at hc'
          exact Nat.pow_right_injective (le_refl 2) hc'
        subst hcc
        have hk1 : ∀ i e, t1.slot i = some e → E.eq k e.1 = false := by
          intro i e h1
          have := hp.mem_iff.mp (hN.inv.mem_iff.mpr ⟨i, h1⟩)
          obtain ⟨i', h2⟩ := hI.mem_iff.mp this
          exact hk i' e h2
        have hroom : t1.size < t1.slotCap L := by
          rw [hN.inv.size, hp.length_eq, ← hI.size_eq]
          have e2 := slotCap_pos (H := H) t1
          rw [hN.gmask, pow_sub_add] at e2
          have hS := H.S_ge
          rcases hI.st with h1 | h1
          · have : t.size = 0 := by rw [h1]; rfl
            rw [this]
            have : 1 * 15 ≤ 2 ^ (c - 4) * L.S := Nat.mul_le_mul (Nat.two_pow_pos _) hS
            split at e2 <;> omega
          · obtain ⟨j, hj1, hj2, hj3, hj4, _⟩ := h1.ctrlCap_eq
            rw [hj4] at hc4
            have hjk : j + 4 < c := (Nat.pow_lt_pow_iff_right (by decide)).mp hc4
            have hs2 := h1.size_le_slotCap
            have e1 := slotCap_pos (H := H) t
            have e3 : 2 * 2 ^ j ≤ 2 ^ (c - 4) := by
              rw [← Nat.pow_succ']; exact Nat.pow_le_pow_right (by decide) (by omega)
            have e4 : 2 * 2 ^ j * L.S ≤ 2 ^ (c - 4) * L.S := Nat.mul_le_mul_right _ e3
            rw [hj3, pow_sub_add] at e1
            have e5 : 2 * 2 ^ j * L.S = 2 ^ j * L.S + 2 ^ j * L.S := by rw [Nat.mul_assoc]; omega
            have e6 : 1 * 15 ≤ 2 ^ j * L.S := Nat.mul_le_mul (Nat.two_pow_pos _) hS
            split at e2 <;> omega
        obtain ⟨t', i, ha, hA⟩ := hN.inv.add hE hk1 v hroom
        simp only [Out.bind_ok]
        have hgoal : EmplaceCase H E t update mem k v (.ok t' (i, true)) :=
          .grown i t1 t' hk hs hm c hc1 hN hp hA hr
        rw [← ha] at hgoal
        revert hgoal
        cases hfe : findEmpty L E true k t1 <;> simp only [Out.bind] <;> exact id
      | diverge k' hm hk' hs' hc' h => cases hs'
    · rw [if_neg hs]
      have hIA : InvA H E t := by
        rcases hI.st with h1 | h1
        · exfalso; apply hs; rw [h1]; exact Nat.le_refl 0
        · exact h1
      have hle := hIA.size_le_slotCap
      by_cases hfull : t.size = t.slotCap L
      · simp only [Out.bind_ok]
        rw [hIA.findEmpty_diverge true k (by omega)]
        exact .diverge hk (by omega) hfull
      · obtain ⟨t', i, ha, hA⟩ := hIA.add hE hk v (by omega)
        simp only [Out.bind_ok]
        have hgoal : EmplaceCase H E t update mem k v (.ok t' (i, true)) :=
          .placed i t' hk (by omega) hA
        rw [← ha] at hgoal
        revert hgoal
        cases hfe : findEmpty L E true k t <;> simp only [Out.bind] <;> exact id
  · rw [hf]
    simp only [Out.bind_ok, Bool.false_eq_true, if_false]
    rw [gp_eta, hi]
    have := EmplaceCase.found (H := H) (t := t) (update := update) (mem := mem) (v := v) i e hi hk
    cases update <;> simpa using this

/-! ### Erasure -/

/-- All outcomes of `erase(key)`. -/
inductive EraseCase (H : Laws L) (E : Env K) (t : Table K V) (k : K) : Out (Table K V) Nat → Prop
  | absent (hk : ∀ i e, t.slot i = some e → E.eq k e.1 = false) : EraseCase H E t k (.ok t 0)
  | removed (g p : Nat) (e : K × V) (hp : p < L.S) (hi : t.slot (g * L.S + p) = some e) (hk : E.eq k e.1 = true)
      (hI' : InvA H E (InvA.erased L g p t))
      (hperm : (entries L t).Perm (e :: entries L (InvA.erased L g p t))) :
      EraseCase H E t k (.ok (InvA.erased L g p t) 1)

theorem Inv.erase_cases {t : Table K V} (hI : Inv H E t) (hE : E.Lawful) (k : K) :
    EraseCase H E t k (eraseKey L E k t) := by
  unfold eraseKey
  rcases hI.find_cases hE k with ⟨hf, hk⟩ | ⟨i, e, hi, hk, hf⟩
  · rw [hf]; exact .absent hk
  · rw [hf]
    simp only
    have hp : i % L.S < L.S := Nat.mod_lt _ H.S_pos
    have hi' : t.slot (i / L.S * L.S + i % L.S) = some e := by rw [gp_eta]; exact hi
    obtain ⟨h1, h2, h3⟩ := (hI.slot_lt hi).erase hp hi'
    rw [h1]
    exact .removed _ _ e hp hi' hk h2 h3

/-! ### Clearing -/

theorem Inv.destroyable {t : Table K V} (hI : Inv H E t) : destroyable L t = true := by
  unfold Verif.destroyable
  rcases hI.st with h1 | h1
  · rw [h1]; rfl
  · have hm := h1.usedPos_map
    have : (usedPos L t).all (fun gp => (t.slot (gp.1 * L.S + gp.2)).isSome) = true := by
      rw [List.all_eq_true]
      intro gp hgp
      have h2 : t.slot (gp.1 * L.S + gp.2) ∈ (usedPos L t).map (fun gp => t.slot (gp.1 * L.S + gp.2)) :=
        List.mem_map_of_mem hgp
      rw [hm] at h2
      obtain ⟨e, _, he⟩ := List.mem_map.mp h2
      rw [← he]; rfl
    simp [this]

theorem Inv.destroy_eq {t : Table K V} (hI : Inv H E t) : destroy L t = .ok (emptyTable L t.mlf) () := by
  unfold destroy; rw [if_pos hI.destroyable]

/-- The table after `clear_data`. -/
def cleared (L : Layout) (t : Table K V) : Table K V :=
  { t with
    grp := fun g => if g = t.gmask then L.markTail L.init else L.init
    slot := fun _ => none
    size := 0 }

theorem Inv.clearData_eq {t : Table K V} (hI : Inv H E t) :
    (t.alloc = true ∧ clearData L t = .ok (cleared L t) () ∧ InvA H E (cleared L t) ∧
      Fresh H (cleared L t) ∧ entries L (cleared L t) = []) ∨
    (t = emptyTable L t.mlf ∧ L.clearMarks = true ∧ clearData L t = .ub) ∨
    (t = emptyTable L t.mlf ∧ L.clearMarks = false ∧ clearData L t = .ok t ()) := by
  unfold clearData
  rw [if_pos hI.destroyable]
  rcases hI.st with h1 | h1
  · have ha : t.alloc = false := by rw [h1]; rfl
    right
    rw [if_neg (by simp [ha])]
    cases hc : L.clearMarks with
    | true => left; exact ⟨h1, rfl, by simp⟩
    | false =>
      right
      refine ⟨h1, rfl, ?_⟩
      simp only [Bool.false_eq_true, if_false]
      conv_rhs => rw [h1]
      rw [h1]; rfl
  · left
    rw [if_pos h1.alloc]
    have := InvA.of_init (H := H) (E := E) (t := cleared L t) h1.alloc h1.geom
      (by unfold cleared; funext g; simp only [Nat.add_right_cancel_iff]) (fun _ => rfl) rfl
    exact ⟨h1.alloc, rfl, this.1, this.2, entries_none (fun _ => rfl)⟩

end
end Verif
