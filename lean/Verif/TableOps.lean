/-
Preservation of the representation invariant by insertion, assignment, erasure and allocation,
with the effect of each on the list of stored elements.
-/
import Verif.TableInv

namespace Verif

section
variable {K V : Type} {L : Layout} {H : Laws L} {E : Env K}

theorem slotCap_pos (t : Table K V) : 
    t.slotCap L + (if H.tail.isSome then 1 else 0) = (t.gmask + 1) * L.S :=
  H.slotCap_spec _ (Nat.succ_pos _)

theorem entries_length_le {t : Table K V} : (entries L t).length ≤ (t.gmask + 1) * L.S := by
  unfold entries
  have := List.length_filterMap_le t.slot (List.range ((t.gmask + 1) * L.S))
  rwa [List.length_range] at this

theorem mem_entries {t : Table K V} {e : K × V} :
    e ∈ entries L t ↔ ∃ i, i < (t.gmask + 1) * L.S ∧ t.slot i = some e :=
  mem_filterMap_range _ _

end

namespace InvA
variable {K V : Type} {L : Layout} {H : Laws L} {E : Env K} {t : Table K V}

theorem mem_iff (hI : InvA H E t) {e : K × V} : e ∈ entries L t ↔ ∃ i, t.slot i = some e := by
  rw [mem_entries]
  constructor
  · rintro ⟨i, _, h⟩; exact ⟨i, h⟩
  · rintro ⟨i, h⟩; exact ⟨i, hI.idx_lt h, h⟩

/-- Number of control positions is far below the word size. -/
theorem cells_le (hI : InvA H E t) : (t.gmask + 1) * L.S ≤ 2 ^ 55 := by
  obtain ⟨j, _, hj, hg, _⟩ := hI.geom
  rw [hg, pow_sub_add]
  calc 2 ^ j * L.S ≤ 2 ^ 51 * 16 := Nat.mul_le_mul (Nat.pow_le_pow_right (by decide) hj) H.S_le
    _ = 2 ^ 55 := by norm_num

theorem size_lt (hI : InvA H E t) : t.size + 1 < W := by
  have h1 := hI.cells_le
  have h2 : (entries L t).length ≤ _ := entries_length_le (t := t)
  rw [hI.size]; unfold W; omega

theorem size_le_slotCap (hI : InvA H E t) : t.size ≤ t.slotCap L := by
  rw [hI.size]
  unfold entries
  apply length_filterMap_range_le
  intro i h1 h2
  have hs := slotCap_pos (H := H) t
  cases hsl : t.slot i with
  | none => rfl
  | some e =>
    exfalso
    have hu := hI.used i e h2 hsl
    by_cases ht : H.tail.isSome = true
    · rw [if_pos ht] at hs
      have := (hI.sent i h2).mpr ⟨ht, by omega⟩
      rw [this] at hu; cases hu
    · rw [if_neg ht] at hs; omega

/-- A control position that is neither empty nor the sentinel holds an element. -/
theorem some_of_not_empty (hI : InvA H E t) {i : Nat} (hi : i < t.slotCap L)
    (hne : cell H t i ≠ .empty) : (t.slot i).isSome := by
  have hs := slotCap_pos (H := H) t
  have hlt : i < (t.gmask + 1) * L.S := by omega
  cases hc : cell H t i with
  | empty => exact absurd hc hne
  | sentinel =>
    have := (hI.sent i hlt).mp hc
    rw [if_pos this.1] at hs; omega
  | used x => exact hI.isome i x hlt hc

theorem exists_empty (hI : InvA H E t) (h : t.size < t.slotCap L) :
    ∃ i, i < (t.gmask + 1) * L.S ∧ cell H t i = .empty := by
  by_contra hc
  push Not at hc
  have hs := slotCap_pos (H := H) t
  have : t.slotCap L ≤ (entries L t).length := by
    apply length_filterMap_range_ge _ (by omega)
    intro i hi
    exact hI.some_of_not_empty hi (hc i (by omega))
  rw [← hI.size] at this; omega

theorem no_empty (hI : InvA H E t) (h : t.slotCap L ≤ t.size) {g i : Nat} (hg : g ≤ t.gmask)
    (hi : i < L.S) : H.view (t.grp g) i ≠ .empty := by
  intro hv
  have hs := slotCap_pos (H := H) t
  have hlt : g * L.S + i < (t.gmask + 1) * L.S := gp_lt hi (by omega)
  have hcell : cell H t (g * L.S + i) = .empty := by rw [cell_gp H t hi]; exact hv
  have hnone : t.slot (g * L.S + i) = none := by
    cases hsl : t.slot (g * L.S + i) with
    | none => rfl
    | some e => have := hI.used _ e hlt hsl; rw [hcell] at this; cases this
  have hnot : ¬ (H.tail.isSome = true ∧ g * L.S + i + 1 = (t.gmask + 1) * L.S) := by
    intro hc
    have := (hI.sent _ hlt).mpr hc
    rw [hcell] at this; cases this
  have hlt2 : g * L.S + i < t.slotCap L := by
    by_cases ht : H.tail.isSome = true
    · rw [if_pos ht] at hs
      have : g * L.S + i + 1 ≠ (t.gmask + 1) * L.S := fun hc => hnot ⟨ht, hc⟩
      omega
    · rw [if_neg ht] at hs; omega
  -- the elements all lie below slotCap and one of these places is vacant
  have hlen : (entries L t).length = ((List.range (t.slotCap L)).filterMap t.slot).length := by
    unfold entries
    by_cases ht : H.tail.isSome = true
    · rw [if_pos ht] at hs
      rw [← hs, List.range_succ, List.filterMap_append]
      have : t.slot (t.slotCap L) = none := by
        cases hsl : t.slot (t.slotCap L) with
        | none => rfl
        | some e =>
          have h1 := hI.used _ e (by omega) hsl
          have h2 := (hI.sent (t.slotCap L) (by omega)).mpr ⟨ht, hs⟩
          rw [h1] at h2; cases h2
      simp [this]
    · rw [if_neg ht] at hs
      rw [← hs, Nat.add_zero]
  have h0 : 0 < t.slotCap L := by omega
  -- fill the vacant place with a copy of some element: one element more, still at most slotCap
  rcases Nat.eq_zero_or_pos t.size with h00 | hpos
  · omega
  · have hne : entries L t ≠ [] := by
      intro hc; rw [hI.size, hc] at hpos; simp at hpos
    obtain ⟨e, _⟩ := List.exists_mem_of_ne_nil _ hne
    have hp := perm_upd_some hlt2 t.slot hnone e
    have h3 := hp.length_eq
    rw [List.length_cons, ← hlen, ← hI.size] at h3
    have h4 := List.length_filterMap_le (upd t.slot (g * L.S + i) (some e)) (List.range (t.slotCap L))
    rw [List.length_range] at h4
    omega

/-- An insertion place exists on the probe path of every key as long as the table is not full. -/
theorem findEmpty_ok (hI : InvA H E t) (check : Bool) (k : K) (h : t.size < t.slotCap L) :
    ∃ t' g p, findEmpty L E check k t = .ok t' (g, p) ∧ 
      Placed H check t t' (t.home E k) (E.h k) g p := by
  obtain ⟨i, hi, hc⟩ := hI.exists_empty h
  obtain ⟨j, _, hj, hg, hs⟩ := hI.geom
  have hhl := hI.home_lt hj hs k
  have hgi : i / L.S < 2 ^ j := by
    have : i / L.S < t.gmask + 1 := Nat.div_lt_of_lt_mul (by rwa [Nat.mul_comm])
    rw [hg, pow_sub_add] at this; exact this
  obtain ⟨n, hn, hp⟩ := probe_surj hhl hgi
  refine findEmptyLoop_ok H check (E.h k) hhl (t.gmask + 2) 0 t hI.alloc hg (by intro m hm; omega)
    ⟨n, by omega, by omega, by omega, i % L.S, Nat.mod_lt _ H.S_pos, ?_⟩
  rw [hg, hp]; exact hc

/-- On a full table the insertion loop never ends. -/
theorem findEmpty_diverge (hI : InvA H E t) (check : Bool) (k : K) (h : t.slotCap L ≤ t.size) :
    findEmpty L E check k t = .diverge := by
  obtain ⟨j, _, hj, hg, hs⟩ := hI.geom
  exact findEmptyLoop_diverge H check _ (hI.home_lt hj hs k) (t.gmask + 2) 0 t hI.alloc hg
    (fun g i hg hi => hI.no_empty h hg hi)

/-- Storing a new element at the place found. -/
theorem insert (hI : InvA H E t) (hE : E.Lawful) {check : Bool} {t' : Table K V} {k : K} {g p : Nat}
    (hP : Placed H check t t' (t.home E k) (E.h k) g p)
    (hk : ∀ i e, t.slot i = some e → E.eq k e.1 = false) (v : V) :
    ∃ t2, constructAt L true (g * L.S + p) (k, v) t' = .ok t2 () ∧
      t2 = { t' with slot := upd t.slot (g * L.S + p) (some (k, v)), size := t.size + 1 } ∧
      t.slot (g * L.S + p) = none ∧ 
      InvA H E t2 ∧ (entries L t2).Perm ((k, v) :: entries L t) := by
  have hS := H.S_pos
  have hlt : g * L.S + p < (t.gmask + 1) * L.S := gp_lt hP.p_lt (by have := hP.g_le; omega)
  have hcell : cell H t (g * L.S + p) = .empty := by rw [cell_gp H t hP.p_lt]; exact hP.was
  have hnone : t.slot (g * L.S + p) = none := by
    cases hsl : t.slot (g * L.S + p) with
    | none => rfl
    | some e => have := hI.used _ e hlt hsl; rw [hcell] at this; cases this
  have hcell' : ∀ i, cell H t' i = if i = g * L.S + p then .used (L.tag (E.h k)) else cell H t i := by
    intro i
    unfold cell
    rw [hP.view _ _ (Nat.mod_lt _ hS)]
    by_cases hi : i = g * L.S + p
    · subst hi; rw [gp_div hP.p_lt, gp_mod hP.p_lt]; simp
    · have : ¬ (i / L.S = g ∧ i % L.S = p) := by
        rintro ⟨h1, h2⟩; apply hi; rw [← h1, ← h2, gp_eta]
      simp [hi, this]
  have hsc := slotCap_pos (H := H) t
  have hlt2 : g * L.S + p < t.slotCap L := by
    by_cases ht : H.tail.isSome = true
    · rw [if_pos ht] at hsc
      have : g * L.S + p + 1 ≠ (t.gmask + 1) * L.S := by
        intro hc
        have := (hI.sent _ hlt).mpr ⟨ht, hc⟩
        rw [hcell] at this; cases this
      omega
    · rw [if_neg ht] at hsc; omega
  have hsz := hI.size_lt
  have hperm : (entries L { t' with slot := upd t.slot (g * L.S + p) (some (k, v)), size := t.size + 1 }).Perm
      ((k, v) :: entries L t) := by
    unfold entries
    simp only [hP.gmask]
    exact perm_upd_some hlt t.slot hnone (k, v)
  refine ⟨_, ?_, rfl, hnone, ?_, hperm⟩
  · unfold constructAt
    have : t'.slotCap L = t.slotCap L := by unfold Table.slotCap; rw [hP.gmask]
    rw [this, hP.alloc, hI.alloc, hP.slot, hP.size]
    simp only [hlt2, decide_true, Bool.and_self, if_true]
    rw [Nat.mod_eq_of_lt hsz]
  · refine
      { alloc := by simpa using hP.alloc.trans hI.alloc
        geom := by simpa [hP.gmask, hP.shift] using hI.geom
        used := ?_, isome := ?_, sent := ?_, oob := ?_, reach := ?_, uniq := ?_, size := ?_ }
    · intro i e hi hs
      simp only [hP.gmask] at hi
      change upd t.slot _ _ i = _ at hs
      show cell H t' i = _
      rw [hcell']
      by_cases h : i = g * L.S + p
      · subst h; rw [upd_self] at hs; cases hs; simp
      · rw [upd_other _ _ h] at hs; rw [if_neg h]; exact hI.used i e hi hs
    · intro i x hi hc
      simp only [hP.gmask] at hi
      change cell H t' i = _ at hc
      rw [hcell'] at hc
      show (upd t.slot _ _ i).isSome
      by_cases h : i = g * L.S + p
      · subst h; rw [upd_self]; rfl
      · rw [if_neg h] at hc; rw [upd_other _ _ h]; exact hI.isome i x hi hc
    · intro i hi
      simp only [hP.gmask] at hi ⊢
      show cell H t' i = _ ↔ _
      rw [hcell', ← hI.sent i hi]
      by_cases h : i = g * L.S + p
      · subst h; rw [hcell]; simp
      · rw [if_neg h]
    · intro i hi
      simp only [hP.gmask] at hi
      show upd t.slot _ _ i = none
      rw [upd_other _ _ (by omega)]; exact hI.oob i hi
    · intro i e hs
      change upd t.slot _ _ i = _ at hs
      simp only [Reach, Table.home, hP.gmask, hP.shift]
      by_cases h : i = g * L.S + p
      · subst h; rw [upd_self] at hs; cases hs
        rw [gp_div hP.p_lt]
        exact hP.path
      · rw [upd_other _ _ h] at hs
        obtain ⟨n, hn, h1, h2⟩ := hI.reach i e hs
        exact ⟨n, hn, h1, fun m hm => hP.ovf _ _ (h2 m hm)⟩
    · intro i j a b ha hb hab
      change upd t.slot _ _ i = _ at ha
      change upd t.slot _ _ j = _ at hb
      by_cases h1 : i = g * L.S + p
      · by_cases h2 : j = g * L.S + p
        · rw [h1, h2]
        · rw [h1, upd_self] at ha; cases ha
          rw [upd_other _ _ h2] at hb
          have := hk j b hb
          rw [this] at hab; cases hab
      · by_cases h2 : j = g * L.S + p
        · rw [h2, upd_self] at hb; cases hb
          rw [upd_other _ _ h1] at ha
          have := hk i a ha
          rw [hE.symm _ _ hab] at this; cases this
        · rw [upd_other _ _ h1] at ha; rw [upd_other _ _ h2] at hb
          exact hI.uniq i j a b ha hb hab
    · rw [hperm.length_eq, List.length_cons, ← hI.size]

/-- Replacing the mapped value of a stored element. -/
theorem assign (hI : InvA H E t) {i : Nat} {e : K × V} (hi : t.slot i = some e) (v : V) :
    InvA H E { t with slot := upd t.slot i (some (e.1, v)) } ∧
    ∃ A B, entries L t = A ++ e :: B ∧
      entries L { t with slot := upd t.slot i (some (e.1, v)) } = A ++ (e.1, v) :: B := by
  have hlt := hI.idx_lt hi
  have hent : ∃ A B, entries L t = A ++ e :: B ∧
      entries L { t with slot := upd t.slot i (some (e.1, v)) } = A ++ (e.1, v) :: B := by
    obtain ⟨A, B, hAB⟩ := filterMap_range_upd hlt t.slot
    refine ⟨A, B, ?_, ?_⟩
    · have := hAB (t.slot i)
      rw [upd_eq_self, hi] at this
      unfold entries; rw [this]; simp
    · have := hAB (some (e.1, v))
      unfold entries; simp only; rw [this]; simp
  refine ⟨?_, hent⟩
  have hback : ∀ j b, upd t.slot i (some (e.1, v)) j = some b →
      ∃ b', t.slot j = some b' ∧ b'.1 = b.1 := by
    intro j b hb
    by_cases h : j = i
    · subst h; rw [upd_self] at hb; cases hb; exact ⟨e, hi, rfl⟩
    · rw [upd_other _ _ h] at hb; exact ⟨b, hb, rfl⟩
  refine
    { alloc := hI.alloc, geom := hI.geom, used := ?_, isome := ?_, sent := hI.sent, oob := ?_
      reach := ?_, uniq := ?_, size := ?_ }
  · intro j b hj hb
    obtain ⟨b', h1, h2⟩ := hback j b hb
    rw [← h2]; exact hI.used j b' hj h1
  · intro j x hj hc
    have := hI.isome j x hj hc
    show (upd t.slot _ _ j).isSome
    by_cases h : j = i
    · subst h; rw [upd_self]; rfl
    · rw [upd_other _ _ h]; exact this
  · intro j hj
    show upd t.slot _ _ j = none
    have hj' : (t.gmask + 1) * L.S ≤ j := hj
    rw [upd_other _ _ (by omega)]; exact hI.oob j hj
  · intro j b hb
    obtain ⟨b', h1, h2⟩ := hback j b hb
    rw [← h2]; exact hI.reach j b' h1
  · intro j l a b ha hb hab
    obtain ⟨a', h1, h2⟩ := hback j a ha
    obtain ⟨b', h3, h4⟩ := hback l b hb
    exact hI.uniq j l a' b' h1 h3 (by rw [h2, h4]; exact hab)
  · obtain ⟨A, B, h1, h2⟩ := hent
    show t.size = _
    rw [h2, hI.size, h1]; simp

/-- The table after `erase_slot`. -/
def erased (L : Layout) (g p : Nat) (t : Table K V) : Table K V :=
  let b := if L.isOverflow (t.grp g) (L.value (t.grp g) p) then 1 else 0
  { t with
    slot := upd t.slot (g * L.S + p) none
    grp := upd t.grp g (L.setEmpty (t.grp g) p)
    thr := (t.thr + W - b) % W
    size := t.size - 1 }

/-- Removing a stored element. -/
theorem erase (hI : InvA H E t) {g p : Nat} {e : K × V} (hp : p < L.S)
    (hi : t.slot (g * L.S + p) = some e) :
    eraseAt L g p t = .ok (erased L g p t) () ∧ InvA H E (erased L g p t) ∧
      (entries L t).Perm (e :: entries L (erased L g p t)) := by
  have hS := H.S_pos
  have hlt := hI.idx_lt hi
  have hg : g ≤ t.gmask := by
    by_contra hc
    have : (t.gmask + 1) * L.S ≤ g * L.S := Nat.mul_le_mul_right _ (by omega)
    omega
  have hperm : (entries L t).Perm (e :: entries L (erased L g p t)) := by
    unfold entries erased
    exact perm_upd_none hlt t.slot e hi
  have hpos : 0 < t.size := by
    rw [hI.size, hperm.length_eq]; simp
  have hszW := hI.size_lt
  refine ⟨?_, ?_, hperm⟩
  · unfold eraseAt
    rw [hi]
    have hw : t.writable g = true := by simp [Table.writable, hI.alloc, hg]
    simp only [hw, if_true, erased]
    rw [show (t.size + W - 1) % W = t.size - 1 by
      rw [show t.size + W - 1 = (t.size - 1) + W by omega, Nat.add_mod_right]
      exact Nat.mod_eq_of_lt (by omega)]
  · have hcell : ∀ i, cell H (erased L g p t) i
        = if i = g * L.S + p then .empty else cell H t i := by
      intro i
      unfold cell erased
      simp only
      by_cases hgi : i / L.S = g
      · rw [hgi, upd_self, H.view_setEmpty _ _ _ hp (Nat.mod_lt _ hS)]
        by_cases hip : i % L.S = p
        · have : i = g * L.S + p := by rw [← hgi, ← hip, gp_eta]
          rw [if_pos hip, if_pos this]
        · have : i ≠ g * L.S + p := by rintro rfl; exact hip (gp_mod hp)
          rw [if_neg hip, if_neg this]
      · rw [upd_other _ _ hgi]
        have : i ≠ g * L.S + p := by rintro rfl; exact hgi (gp_div hp)
        rw [if_neg this]
    have hback : ∀ j b, upd t.slot (g * L.S + p) none j = some b →
        j ≠ g * L.S + p ∧ t.slot j = some b := by
      intro j b hb
      by_cases h : j = g * L.S + p
      · rw [h, upd_self] at hb; cases hb
      · rw [upd_other _ _ h] at hb; exact ⟨h, hb⟩
    refine
      { alloc := hI.alloc, geom := hI.geom, used := ?_, isome := ?_, sent := ?_, oob := ?_
        reach := ?_, uniq := ?_, size := ?_ }
    · intro j b hj hb
      obtain ⟨h1, h2⟩ := hback j b hb
      rw [hcell, if_neg h1]; exact hI.used j b hj h2
    · intro j x hj hc
      rw [hcell] at hc
      show (upd t.slot _ _ j).isSome
      by_cases h : j = g * L.S + p
      · rw [if_pos h] at hc; cases hc
      · rw [if_neg h] at hc; rw [upd_other _ _ h]; exact hI.isome j x hj hc
    · intro j hj
      rw [hcell, show (erased L g p t).gmask = t.gmask from rfl, ← hI.sent j hj]
      by_cases h : j = g * L.S + p
      · rw [if_pos h, h]
        have := hI.used _ e hlt hi
        rw [this]; simp
      · rw [if_neg h]
    · intro j hj
      show upd t.slot _ _ j = none
      have hj' : (t.gmask + 1) * L.S ≤ j := hj
      rw [upd_other _ _ (by omega)]; exact hI.oob j hj
    · intro j b hb
      obtain ⟨_, h2⟩ := hback j b hb
      obtain ⟨n, hn, h3, h4⟩ := hI.reach j b h2
      refine ⟨n, hn, h3, ?_⟩
      intro m hm
      have := h4 m hm
      show L.isOverflow (upd t.grp g _ _) _ = true
      by_cases hgg : probe t.gmask (t.home E b.1) m = g
      · have : L.isOverflow (t.grp g) (L.tag (E.h b.1)) = true := hgg ▸ this
        rw [show probe (erased L g p t).gmask (Table.home E (erased L g p t) b.1) m = g from hgg,
          upd_self, H.ovf_setEmpty _ _ _ hp]; exact this
      · rw [upd_other _ _ (by exact hgg)]; exact this
    · intro j l a b ha hb hab
      exact hI.uniq j l a b (hback j a ha).2 (hback l b hb).2 hab
    · show t.size - 1 = _
      rw [hI.size, hperm.length_eq]; simp

/-- Distinct places hold inequivalent keys. -/
theorem pairwise (hI : InvA H E t) :
    (entries L t).Pairwise (fun a b => E.eq a.1 b.1 = false) := by
  unfold entries
  rw [List.pairwise_filterMap]
  refine List.Pairwise.imp_of_mem ?_ (List.nodup_range (n := (t.gmask + 1) * L.S))
  intro i j _ _ hij a ha b hb
  by_contra hc
  have : E.eq a.1 b.1 = true := by simpa using hc
  exact hij (hI.uniq i j a b ha hb this)

end InvA
end Verif
