/-
How calls change capacity(), and what happens when the allocator refuses.
-/
import Verif.Api

namespace Verif
open Spec (Call Ans)

section
variable {K V : Type} {L : Layout} {H : Laws L} {E : Env K} {walk : Table K V → Res (List (K × V))}

theorem InvA.capacity_eq {t : Table K V} (hI : InvA H E t) : t.capacity L = t.slotCap L := by
  unfold Table.capacity; rw [if_pos hI.alloc]

theorem empty_capacity (m : Nat) : (emptyTable L m : Table K V).capacity L = 0 := rfl

theorem Inv.alloc_iff {t : Table K V} (hI : Inv H E t) : t.alloc = false ↔ t.capacity L = 0 := by
  rcases hI.st with h | h
  · rw [h]; simp [Table.capacity, emptyTable]
  · rw [h.capacity_eq, h.alloc]
    obtain ⟨j, h1, h2, h3, _⟩ := h.geom
    have h4 := slotCap_pos (H := H) t
    have h5 := H.S_ge
    have : t.gmask + 1 ≥ 2 := by
      rw [h3, pow_sub_add]
      have : 2 ^ 1 ≤ 2 ^ j := Nat.pow_le_pow_right (by omega) h1
      omega
    have h6 : 2 * L.S ≤ (t.gmask + 1) * L.S := Nat.mul_le_mul_right _ this
    simp only [Bool.true_eq_false, false_iff]
    split at h4 <;> omega

theorem NewStore.capacity_eq {t' : Table K V} {k m : Nat} (hN : NewStore H E k m t') :
    t'.capacity L = L.slotCap (2 ^ (k - 4)) := by
  rw [hN.inv.capacity_eq, hN.slotCap_eq]

/-- Capacity as a function of the number of control bytes. -/
theorem Inv.capacity_lt {t t' : Table K V} (hI : Inv H E t) {k m : Nat} (hN : NewStore H E k m t')
    (h : t.ctrlCap L < 2 ^ k) : t.capacity L < t'.capacity L := by
  have h1 := H.slotCap_spec (2 ^ (k - 4)) (Nat.two_pow_pos _)
  rw [hN.capacity_eq]
  have hk := hN.k_ge
  have hS := H.S_ge
  rcases hI.st with he | hA
  · rw [he, empty_capacity]
    have : 2 ^ 1 ≤ 2 ^ (k - 4) := Nat.pow_le_pow_right (by omega) (by omega)
    have : 2 * L.S ≤ 2 ^ (k - 4) * L.S := Nat.mul_le_mul_right _ (by omega)
    split at h1 <;> omega
  · rw [hA.capacity_eq]
    obtain ⟨j, h2, h3, h4, h5, _⟩ := hA.ctrlCap_eq
    rw [h5] at h
    have h6 : j + 4 < k := (Nat.pow_lt_pow_iff_right (by omega)).mp h
    have h7 : 2 ^ (j + 1) ≤ 2 ^ (k - 4) := Nat.pow_le_pow_right (by omega) (by omega)
    have h8 := slotCap_pos (H := H) t
    rw [h4, pow_sub_add] at h8
    have h9 : 2 ^ (j + 1) * L.S ≤ 2 ^ (k - 4) * L.S := Nat.mul_le_mul_right _ h7
    have h10 : 2 ^ (j + 1) * L.S = 2 ^ j * L.S + 2 ^ j * L.S := by rw [Nat.pow_succ]; ring
    have h11 : 1 * 1 ≤ 2 ^ j * L.S := Nat.mul_le_mul (Nat.two_pow_pos _) (by omega)
    omega

theorem EmplaceCase.capacity_le {t t' : Table K V} (hI : Inv H E t) {update mem : Bool} {k : K} {v : V}
    {r : Nat × Bool} (hC : EmplaceCase H E t update mem k v (.ok t' r)) : t.capacity L ≤ t'.capacity L := by
  generalize hr : Out.ok t' r = o at hC
  cases hC with
  | found i e hi hk => cases hr; cases update <;> exact Nat.le_refl _
  | throw hk hs h => cases hr
  | placed i t1 hk hs hA =>
    cases hr
    rw [hA.inv.capacity_eq, Table.slotCap, hA.gmask]
    unfold Table.capacity
    split
    · exact Nat.le_refl _
    · exact Nat.zero_le _
  | grown i t1 t2 hk hs hm c hc hN hp hA =>
    cases hr
    have h1 : t1.capacity L = t'.capacity L := by
      rw [hA.inv.capacity_eq, hN.inv.capacity_eq, Table.slotCap, Table.slotCap, hA.gmask]
    rw [← h1]
    have : t.ctrlCap L < 2 ^ c := by omega
    exact Nat.le_of_lt (hI.capacity_lt hN this)
  | diverge hk hs hfull => cases hr

theorem RehashCase.capacity_le {t t' : Table K V} (hI : Inv H E t) {mem : Bool} {n : Nat} {u : Unit}
    (hC : RehashCase H E t false mem n (.ok t' u)) : t.capacity L ≤ t'.capacity L := by
  generalize hr : Out.ok t' u = o at hC
  cases hC with
  | ub h => cases hr
  | throw k hk hc h => cases hr
  | same k hk hc h => cases hr; exact Nat.le_refl _
  | moved k t1 hm hc h hN hp => cases hr; exact Nat.le_of_lt (hI.capacity_lt hN h)
  | diverge k hm hk hs hc h => cases hr

theorem RehashCase.throw_eq {t t' : Table K V} {shrink mem : Bool} {n : Nat}
    (hC : RehashCase H E t shrink mem n (.throw t')) :
    t' = t ∧ (mem = false ∨ ∃ k, 55 < k ∧ calcCapacity t.size n = .ok (2 ^ k)) := by
  generalize hr : Out.throw t' = o at hC
  cases hC with
  | throw k hk hc h =>
    cases hr
    refine ⟨rfl, ?_⟩
    rcases h with h | h
    · exact Or.inl h
    · exact Or.inr ⟨k, h, hc⟩
  | _ => cases hr

theorem bind_throw_iff {σ α β : Type} {r : Out σ α} {f : σ → α → Out σ β} {s : σ} (hf : ∀ t a, f t a ≠ .throw s) :
    r.bind f = .throw s ↔ r = .throw s := by
  cases r <;> simp [Out.bind, hf]

theorem readElem_ne_throw {t s : Table K V} {r : Nat × Bool} : readElem t r ≠ .throw s := by
  unfold readElem; split <;> simp

theorem readValue_ne_throw {t s : Table K V} {r : Nat × Bool} : readValue t r ≠ .throw s := by
  unfold readValue; split <;> simp

theorem EmplaceCase.throw_eq {t t' : Table K V} {update mem : Bool} {k : K} {v : V}
    (hC : EmplaceCase H E t update mem k v (.throw t')) :
    t' = t ∧ (mem = false ∨ 2 ^ 55 < max 32 (2 * t.ctrlCap L)) := by
  generalize hr : Out.throw t' = o at hC
  cases hC with
  | throw hk hs h => cases hr; exact ⟨rfl, h⟩
  | _ => cases hr

theorem calcCapacity_big {s n k : Nat} (h : calcCapacity s n = .ok (2 ^ k)) (hk : 55 < k) : 2 ^ 55 ≤ max n s := by
  obtain ⟨k', h1, h2, h3, h4, h5⟩ := calcCapacity_ok h
  have : 2 ^ 56 ≤ 2 ^ k := Nat.pow_le_pow_right (by omega) (by omega)
  omega

theorem ctrlCap_big {t : Table K V} (hI : Inv H E t) (h : 2 ^ 53 ≤ t.ctrlCap L) : 2 ^ 52 ≤ t.capacity L := by
  rcases hI.st with he | hA
  · have := H.ctrlCap0_le
    rw [he] at h
    have h1 : (emptyTable L t.mlf : Table K V).ctrlCap L = L.ctrlCap0 := rfl
    rw [h1] at h
    omega
  · obtain ⟨j, h2, h3, h4, h5, _⟩ := hA.ctrlCap_eq
    rw [h5] at h
    rw [hA.capacity_eq]
    have h8 := slotCap_pos (H := H) t
    rw [h4, pow_sub_add] at h8
    have hS := H.S_ge
    have h6 : 2 ^ j * 15 ≤ 2 ^ j * L.S := Nat.mul_le_mul_left _ hS
    have h10 : 53 ≤ j + 4 := (Nat.pow_le_pow_iff_right (by omega)).mp h
    have h11 : 2 ^ 49 ≤ 2 ^ j := Nat.pow_le_pow_right (by omega) (by omega)
    split at h8 <;> omega

theorem Inv.size_le_capacity {t : Table K V} (hI : Inv H E t) : t.size ≤ t.capacity L := by
  rcases hI.st with he | hA
  · rw [he]; exact Nat.zero_le _
  · rw [hA.capacity_eq]; exact hA.size_le_slotCap

theorem fitCapacity_le_two {m n : Nat} (hm : 128 ≤ m) : fitCapacity m n ≤ 2 * n := by
  unfold fitCapacity
  calc n * 256 % W / m ≤ n * 256 / m := Nat.div_le_div_right (Nat.mod_le _ _)
    _ ≤ n * 256 / 128 := Nat.div_le_div_left hm (by omega)
    _ = 2 * n := by omega

/-- An exception leaves the object as it was (up to the stored load factor for `max_load_factor`), and is
only raised when the allocator refused or about 2^52 elements are involved. -/
theorem Inv.throw_api {t : Table K V} (hI : Inv H E t) (hE : E.Lawful) {mem : Bool} {c : Call K V} (hv : Valid c)
    {t' : Table K V} (hx : exec L E walk mem c t = .throw t') :
    (t' = t ∨ ∃ m, c = .maxLoad m ∧ t' = { t with mlf := m }) ∧
    (mem = false ∨ 2 ^ 52 ≤ t.capacity L ∨ ∃ n, 2 ^ 52 ≤ n ∧ (c = .reserve n ∨ c = .rehash n)) := by
  have hszc := hI.size_le_capacity
  have hem : ∀ update k v, emplace L E update mem true k v t = .throw t' →
      t' = t ∧ (mem = false ∨ 2 ^ 52 ≤ t.capacity L) := by
    intro update k v h
    have hC := hI.emplace_cases hE update mem k v
    rw [h] at hC
    obtain ⟨h1, h2⟩ := hC.throw_eq
    exact ⟨h1, h2.imp id (fun h => ctrlCap_big hI (by omega))⟩
  have hre : ∀ (t1 : Table K V), Inv H E t1 → ∀ shrink n, rehashImpl L E shrink mem n t1 = .throw t' →
      t' = t1 ∧ (mem = false ∨ 2 ^ 55 ≤ max n t1.size) := by
    intro t1 hI1 shrink n h
    have hC := hI1.rehashImpl_cases hE shrink mem n
    rw [h] at hC
    obtain ⟨h1, h2⟩ := hC.throw_eq
    refine ⟨h1, h2.imp id ?_⟩
    rintro ⟨k, hk, hc⟩
    exact calcCapacity_big hc hk
  have hread : ∀ {α : Type} {r : Res α}, (r.toOut t : Out (Table K V) α) ≠ .throw t' := by
    intro α r; cases r <;> simp [Res.toOut]
  have hok : ∀ {α : Type} {f : α → Ans K V} (s : Table K V) (a : α), (Out.ok s (f a) : Out (Table K V) (Ans K V)) ≠ .throw t' := by
    intro α f s a; simp
  cases c with
  | insert k v =>
    obtain ⟨h1, h2⟩ := hem _ _ _ ((bind_throw_iff (fun _ _ => readElem_ne_throw)).mp hx)
    exact ⟨Or.inl h1, h2.imp id Or.inl⟩
  | assign k v =>
    obtain ⟨h1, h2⟩ := hem _ _ _ ((bind_throw_iff (fun _ _ => readElem_ne_throw)).mp hx)
    exact ⟨Or.inl h1, h2.imp id Or.inl⟩
  | index k v =>
    obtain ⟨h1, h2⟩ := hem _ _ _ ((bind_throw_iff (fun _ _ => readValue_ne_throw)).mp hx)
    exact ⟨Or.inl h1, h2.imp id Or.inl⟩
  | find k => exact absurd hx hread
  | contains k => exact absurd hx hread
  | count k => exact absurd hx hread
  | «at» k => exact absurd hx hread
  | iterate => exact absurd hx hread
  | size => cases hx
  | empty => cases hx
  | erase k =>
    obtain ⟨t2, a, h⟩ := hI.erase_total (walk := walk) hE mem k
    rw [h] at hx; cases hx
  | clear d =>
    exfalso
    have hx := (bind_throw_iff (fun _ _ => by simp)).mp hx
    unfold clear at hx
    split at hx
    · rw [hI.destroy_eq] at hx; cases hx
    · rcases hI.clearData_eq with ⟨h1, h2, _⟩ | ⟨h1, h2, h3⟩ | ⟨h1, h2, h3⟩
      · rw [h2] at hx; cases hx
      · rw [h3] at hx; cases hx
      · rw [h3] at hx; cases hx
  | reserve n =>
    rw [exec_reserve_of_ne_ub (by rw [hx]; simp)] at hx
    have hx := (bind_throw_iff (fun _ _ => by simp)).mp hx
    unfold reserve at hx
    split at hx
    · obtain ⟨h1, h2⟩ := hre t hI _ _ hx
      refine ⟨Or.inl h1, h2.imp id ?_⟩
      intro h
      have := fitCapacity_le_two (n := n) hI.mlf_lo
      by_cases hn : 2 ^ 52 ≤ n
      · exact Or.inr ⟨n, hn, Or.inl rfl⟩
      · left; omega
    · rw [hI.destroy_eq] at hx; cases hx
  | rehash n =>
    rw [exec_rehash_of_ne_ub (by rw [hx]; simp)] at hx
    have hx := (bind_throw_iff (fun _ _ => by simp)).mp hx
    unfold rehash at hx
    simp only at hx
    split at hx
    · obtain ⟨h1, h2⟩ := hre t hI _ _ hx
      refine ⟨Or.inl h1, h2.imp id ?_⟩
      intro h
      have := fitCapacity_le_two (n := t.size) hI.mlf_lo
      by_cases hn : 2 ^ 52 ≤ n
      · exact Or.inr ⟨n, hn, Or.inr rfl⟩
      · left; omega
    · rw [hI.destroy_eq] at hx; cases hx
  | shrink ro =>
    have hx := (bind_throw_iff (fun _ _ => by simp)).mp hx
    unfold shrinkToFit at hx
    simp only at hx
    have hle : (if ro = true then t.size else fitCapacity t.mlf t.size) ≤ 2 * t.size := by
      have := fitCapacity_le_two (n := t.size) hI.mlf_lo
      split <;> omega
    generalize (if ro = true then t.size else fitCapacity t.mlf t.size) = n at hx hle
    split at hx
    · obtain ⟨h1, h2⟩ := hre t hI _ _ hx
      refine ⟨Or.inl h1, h2.imp id ?_⟩
      intro h
      left; omega
    · rw [hI.destroy_eq] at hx; cases hx
  | maxLoad x =>
    obtain ⟨hx1, hx2⟩ := hv
    have hx := (bind_throw_iff (fun _ _ => by simp)).mp hx
    have hI1 := hI.set_mlf hx1 hx2
    unfold setMlf at hx
    simp only at hx
    have hcc : Table.ctrlCap L { t with mlf := x } = t.ctrlCap L := rfl
    rw [hcc] at hx
    split at hx
    · cases hx
    · cases hx
    · rename_i cap hc
      split at hx
      · unfold rehash at hx
        simp only at hx
        split at hx
        · obtain ⟨h1, h2⟩ := hre _ hI1 _ _ hx
          refine ⟨Or.inr ⟨x, rfl, h1⟩, h2.imp id ?_⟩
          intro h
          left
          have h3 := fitCapacity_le_two (n := t.size) hx1
          have h4 := fitCapacity_le_two (n := t.ctrlCap L) hx1
          obtain ⟨k', _, _, _, _, h5⟩ := calcCapacity_ok hc
          simp only at h
          by_cases hb : 2 ^ 53 ≤ t.ctrlCap L
          · exact ctrlCap_big hI hb
          · omega
        · rw [hI1.destroy_eq] at hx; cases hx
      · cases hx

end
end Verif
