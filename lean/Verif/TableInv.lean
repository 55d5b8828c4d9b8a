/-
Representation invariant of the group tables and correctness of the probe loops.
-/
import Verif.ListAux

namespace Verif

section
variable {K V : Type} {L : Layout} (H : Laws L) (E : Env K)

/-- Meaning of the control byte belonging to slot index `i`. -/
def cell (t : Table K V) (i : Nat) : Cell := H.view (t.grp (i / L.S)) (i % L.S)

/-- The element of slot `i` is on the probe path of its key and every earlier group of the path carries
the overflow mark for its tag. -/
def Reach (t : Table K V) (i : Nat) (k : K) : Prop :=
  ∃ n, n ≤ t.gmask ∧ probe t.gmask (t.home E k) n = i / L.S ∧
    ∀ m, m < n → L.isOverflow (t.grp (probe t.gmask (t.home E k) m)) (L.tag (E.h k)) = true

/-- Invariant of a table that owns storage. -/
structure InvA (t : Table K V) : Prop where
  alloc : t.alloc = true
  geom : ∃ j, 1 ≤ j ∧ j ≤ 51 ∧ t.gmask = 2 ^ j - 1 ∧ t.shift = 64 - j
  used : ∀ i e, i < (t.gmask + 1) * L.S → t.slot i = some e → cell H t i = .used (L.tag (E.h e.1))
  isome : ∀ i x, i < (t.gmask + 1) * L.S → cell H t i = .used x → (t.slot i).isSome
  sent : ∀ i, i < (t.gmask + 1) * L.S →
    (cell H t i = .sentinel ↔ (H.tail.isSome = true ∧ i + 1 = (t.gmask + 1) * L.S))
  oob : ∀ i, (t.gmask + 1) * L.S ≤ i → t.slot i = none
  reach : ∀ i e, t.slot i = some e → Reach (L := L) E t i e.1
  uniq : ∀ i j a b, t.slot i = some a → t.slot j = some b → E.eq a.1 b.1 = true → i = j
  size : t.size = (entries L t).length

/-- Outcome of a successful `find_empty_to_insert`. -/
structure Placed (check : Bool) (t t' : Table K V) (h x g p : Nat) : Prop where
  alloc : t'.alloc = t.alloc
  slot : t'.slot = t.slot
  size : t'.size = t.size
  gmask : t'.gmask = t.gmask
  shift : t'.shift = t.shift
  mlf : t'.mlf = t.mlf
  thr : t'.thr = t.thr ∨ (check = true ∧ L.bump = true ∧ L.isOverflow (t.grp g) (L.tag x) = true ∧
    t'.thr = (t.thr + 1) % W)
  g_le : g ≤ t.gmask
  p_lt : p < L.S
  was : H.view (t.grp g) p = .empty
  view : ∀ g' i, i < L.S →
    H.view (t'.grp g') i = if g' = g ∧ i = p then .used (L.tag x) else H.view (t.grp g') i
  ovf : ∀ g' y, L.isOverflow (t.grp g') y = true → L.isOverflow (t'.grp g') y = true
  ovf_full : ∀ g' y, L.isOverflow (t'.grp g') y = true →
    L.isOverflow (t.grp g') y = true ∨ ∀ i, i < L.S → H.view (t.grp g') i ≠ .empty
  path : ∃ n, n ≤ t.gmask ∧ probe t.gmask h n = g ∧
    ∀ m, m < n → L.isOverflow (t'.grp (probe t.gmask h m)) (L.tag x) = true

theorem pow_sub_add (j : Nat) : 2 ^ j - 1 + 1 = 2 ^ j := by
  have : 0 < 2 ^ j := Nat.two_pow_pos j
  omega

theorem iter_next (mask h n : Nat) :
    ((Prober.iter mask (Prober.mk0 h) n).next mask).1 = Prober.iter mask (Prober.mk0 h) (n + 1) := rfl

theorem iter_next_more (mask h n : Nat) :
    ((Prober.iter mask (Prober.mk0 h) n).next mask).2 = decide (n + 1 ≤ mask) := by
  simp [Prober.next]

theorem matchEmpty_zero (g : Group) : L.matchEmpty g = 0 ↔ ∀ i, i < L.S → H.view g i ≠ .empty := by
  constructor
  · intro h i hi hv
    have := (H.matchEmpty_bit g i hi).mpr hv
    rw [h] at this; simp at this
  · intro h
    apply Nat.eq_of_testBit_eq
    intro i
    rw [Nat.zero_testBit]
    by_cases hi : i < L.S
    · have := mt (H.matchEmpty_bit g i hi).mp (h i hi)
      simpa using this
    · apply Nat.testBit_lt_two_pow
      exact lt_of_lt_of_le (H.matchEmpty_lt g) (Nat.pow_le_pow_right (by decide) (by omega))

/-- The position picked by `bsf32(match_empty())`. -/
theorem bsf_matchEmpty {g : Group} (h : L.matchEmpty g ≠ 0) :
    bsf32 (L.matchEmpty g) < L.S ∧ H.view g (bsf32 (L.matchEmpty g)) = .empty := by
  have hlt : L.matchEmpty g < 2 ^ 32 :=
    lt_of_lt_of_le (H.matchEmpty_lt g) (Nat.pow_le_pow_right (by decide) (by have := H.S_le; omega))
  have hb := (bsf32_spec h hlt).1
  have hS : bsf32 (L.matchEmpty g) < L.S := by
    by_contra hc
    have : (L.matchEmpty g).testBit (bsf32 (L.matchEmpty g)) = false := by
      apply Nat.testBit_lt_two_pow
      exact lt_of_lt_of_le (H.matchEmpty_lt g) (Nat.pow_le_pow_right (by decide) (by omega))
    rw [this] at hb; exact absurd hb (by simp)
  exact ⟨hS, (H.matchEmpty_bit g _ hS).mp hb⟩

/-- `find_empty_to_insert` succeeds as soon as some group of the probe path has an empty byte. -/
theorem findEmptyLoop_ok (check : Bool) (x : Nat) {j h : Nat} (hh : h < 2 ^ j) :
    ∀ (f n : Nat) (t : Table K V), t.alloc = true → t.gmask = 2 ^ j - 1 →
      (∀ m, m < n → L.isOverflow (t.grp (probe t.gmask h m)) (L.tag x) = true) →
      (∃ m0, n ≤ m0 ∧ m0 < n + f ∧ m0 ≤ t.gmask ∧
        ∃ i, i < L.S ∧ H.view (t.grp (probe t.gmask h m0)) i = .empty) →
      ∃ t' g p, findEmptyLoop L check (L.tag x) f (Prober.iter t.gmask (Prober.mk0 h) n) t
          = .ok t' (g, p) ∧ Placed H check t t' h x g p := by
  intro f
  induction f with
  | zero => rintro n t _ _ _ ⟨m0, h1, h2, _⟩; omega
  | succ f ih =>
    rintro n t hal hgm hov ⟨m0, h1, h2, h3, i0, hi0, hv0⟩
    have hle : ∀ m, probe t.gmask h m ≤ t.gmask := by
      intro m
      have := probe_lt hh m
      rw [hgm]; omega
    have hw : t.writable (probe t.gmask h n) = true := by
      simp [Table.writable, hal, hle n]
    unfold findEmptyLoop
    simp only [show (Prober.iter t.gmask (Prober.mk0 h) n).get = probe t.gmask h n from rfl, hw, if_true]
    by_cases hm : L.matchEmpty (t.grp (probe t.gmask h n)) = 0
    · simp only [hm, ne_eq, not_true_eq_false, if_false]
      rw [iter_next]
      have hne : n ≠ m0 := by
        rintro rfl
        exact (matchEmpty_zero H _).mp hm i0 hi0 hv0
      let t1 : Table K V := { t with
        grp := upd t.grp (probe t.gmask h n) (L.setOverflow (t.grp (probe t.gmask h n)) (L.tag x)) }
      have hview : ∀ g' i, i < L.S → H.view (t1.grp g') i = H.view (t.grp g') i := by
        intro g' i hi
        show H.view (upd t.grp _ _ g') i = _
        by_cases hg : g' = probe t.gmask h n
        · rw [hg, upd_self, H.view_setOverflow _ _ _ hi]
        · rw [upd_other _ _ hg]
      have hovf : ∀ g' y, L.isOverflow (t.grp g') y = true → L.isOverflow (t1.grp g') y = true := by
        intro g' y hy
        show L.isOverflow (upd t.grp _ _ g') y = true
        by_cases hg : g' = probe t.gmask h n
        · rw [hg, upd_self]; exact H.ovf_setOverflow_mono _ _ _ (hg ▸ hy)
        · rw [upd_other _ _ hg]; exact hy
      obtain ⟨t', g, p, he, hp⟩ := ih (n + 1) t1 hal hgm
        (by
          intro m hmn
          by_cases hmn' : m = n
          · subst hmn'
            show L.isOverflow (upd t.grp _ _ _) _ = true
            rw [upd_self]; exact H.ovf_setOverflow_self _ _
          · exact hovf _ _ (hov m (by omega)))
        ⟨m0, by omega, by omega, h3, i0, hi0, by
          rw [hview _ _ hi0]; exact hv0⟩
      refine ⟨t', g, p, he, ?_⟩
      exact
        { alloc := hp.alloc, slot := hp.slot, size := hp.size, gmask := hp.gmask, shift := hp.shift
          mlf := hp.mlf
          thr := by
            rcases hp.thr with hq | ⟨h1, h2, h3, h4⟩
            · exact Or.inl hq
            · right
              refine ⟨h1, h2, ?_, h4⟩
              by_cases hg : g = probe t.gmask h n
              · exfalso
                have := hp.was
                rw [hview _ _ hp.p_lt, hg] at this
                exact (matchEmpty_zero H _).mp hm _ hp.p_lt this
              · change L.isOverflow (upd t.grp _ _ g) _ = true at h3
                rwa [upd_other _ _ hg] at h3
          g_le := hp.g_le, p_lt := hp.p_lt
          was := by rw [← hview _ _ hp.p_lt]; exact hp.was
          view := by
            intro g' i hi
            rw [hp.view g' i hi, hview g' i hi]
          ovf := fun g' y hy => hp.ovf g' y (hovf g' y hy)
          ovf_full := by
            intro g' y hy
            rcases hp.ovf_full g' y hy with hq | hq
            · by_cases hg : g' = probe t.gmask h n
              · right; rw [hg]; exact (matchEmpty_zero H _).mp hm
              · left; change L.isOverflow (upd t.grp _ _ g') y = true at hq
                rwa [upd_other _ _ hg] at hq
            · right; intro i hi; rw [← hview g' i hi]; exact hq i hi
          path := hp.path }
    · simp only [ne_eq, hm, not_false_eq_true, if_true]
      obtain ⟨hpS, hpv⟩ := bsf_matchEmpty H hm
      refine ⟨_, _, _, rfl, ?_⟩
      refine
        { alloc := rfl, slot := rfl, size := rfl, gmask := rfl, shift := rfl, mlf := rfl
          thr := ?_, g_le := hle n, p_lt := hpS, was := hpv, view := ?_, ovf := ?_, ovf_full := ?_, path := ?_ }
      · simp only
        split
        · rename_i hc
          simp only [Bool.and_eq_true] at hc
          exact Or.inr ⟨hc.1.1, hc.1.2, by rw [← H.ovf_setUsed _ _ _ _ hpS]; exact hc.2, rfl⟩
        · exact Or.inl rfl
      · intro g' i hi
        show H.view (upd t.grp _ _ g') i = _
        by_cases hg : g' = probe t.gmask h n
        · rw [hg, upd_self, H.view_setUsed _ _ _ _ hpS hi]; simp
        · rw [upd_other _ _ hg]; simp [hg]
      · intro g' y hy
        show L.isOverflow (upd t.grp _ _ g') y = true
        by_cases hg : g' = probe t.gmask h n
        · rw [hg, upd_self, H.ovf_setUsed _ _ _ _ hpS]; exact hg ▸ hy
        · rw [upd_other _ _ hg]; exact hy
      · intro g' y hy
        change L.isOverflow (upd t.grp _ _ g') y = true at hy
        by_cases hg : g' = probe t.gmask h n
        · rw [hg, upd_self, H.ovf_setUsed _ _ _ _ hpS] at hy; left; rw [hg]; exact hy
        · rw [upd_other _ _ hg] at hy; exact Or.inl hy
      · refine ⟨n, by omega, rfl, ?_⟩
        intro m hmn
        show L.isOverflow (upd t.grp _ _ _) _ = true
        have hy := hov m hmn
        by_cases hg : probe t.gmask h m = probe t.gmask h n
        · rw [hg, upd_self, H.ovf_setUsed _ _ _ _ hpS]; exact hg ▸ hy
        · rw [upd_other _ _ hg]; exact hy

/-- When no owned group has an empty byte, `find_empty_to_insert` runs forever: no amount of fuel
ends it. -/
theorem findEmptyLoop_diverge (check : Bool) (tg : Nat) {j h : Nat} (hh : h < 2 ^ j) :
    ∀ (f n : Nat) (t : Table K V), t.alloc = true → t.gmask = 2 ^ j - 1 →
      (∀ g i, g ≤ t.gmask → i < L.S → H.view (t.grp g) i ≠ .empty) →
      findEmptyLoop L check tg f (Prober.iter t.gmask (Prober.mk0 h) n) t = .diverge := by
  intro f
  induction f with
  | zero => intros; rfl
  | succ f ih =>
    intro n t hal hgm hfull
    have hle : ∀ m, probe t.gmask h m ≤ t.gmask := by
      intro m
      have := probe_lt hh m
      rw [hgm]; omega
    have hw : t.writable (probe t.gmask h n) = true := by
      simp [Table.writable, hal, hle n]
    unfold findEmptyLoop
    simp only [show (Prober.iter t.gmask (Prober.mk0 h) n).get = probe t.gmask h n from rfl, hw, if_true]
    have hm : L.matchEmpty (t.grp (probe t.gmask h n)) = 0 :=
      (matchEmpty_zero H _).mpr (fun i hi => hfull _ i (hle n) hi)
    simp only [hm, ne_eq, not_true_eq_false, if_false]
    rw [iter_next]
    refine ih (n + 1) { t with
        grp := upd t.grp (probe t.gmask h n) (L.setOverflow (t.grp (probe t.gmask h n)) tg) } hal hgm ?_
    intro g i hg hi
    show H.view (upd t.grp _ _ g) i ≠ _
    by_cases hgg : g = probe t.gmask h n
    · rw [hgg, upd_self, H.view_setOverflow _ _ _ hi]; exact hfull _ i (hle n) hi
    · rw [upd_other _ _ hgg]; exact hfull g i hg hi

/-! ### Lookup -/

/-- The key test of `scanGroup`. -/
def hit (t : Table K V) (k : K) (base p : Nat) : Bool :=
  match t.slot (base + p) with
  | none => false
  | some e => E.eq k e.1

theorem scanGroup_ok (t : Table K V) (k : K) (base : Nat) :
    ∀ ps : List Nat, (∀ p ∈ ps, (t.slot (base + p)).isSome) →
      scanGroup E t k base ps = .ok (ps.find? (hit E t k base)) := by
  intro ps
  induction ps with
  | nil => intro _; rfl
  | cons p ps ih =>
    intro h
    obtain ⟨e, he⟩ := Option.isSome_iff_exists.mp (h p (by simp))
    have ih' := ih (fun q hq => h q (by simp [hq]))
    unfold scanGroup
    rw [he]
    simp only [List.find?_cons, hit, he]
    by_cases heq : E.eq k e.1
    · simp [heq]
    · simp only [heq]
      exact ih'

theorem mem_bits_matchHash (g : Group) (x p : Nat) :
    p ∈ bitsOf (L.matchHash g (L.tag x)) ↔ p < L.S ∧ H.view g p = .used (L.tag x) := by
  rw [bitsOf_eq (by have := H.S_le; omega : L.S ≤ 32) (H.matchHash_lt _ _)]
  simp only [List.mem_filter, List.mem_range]
  constructor
  · rintro ⟨h1, h2⟩; exact ⟨h1, (H.matchHash_bit g x p h1).mp h2⟩
  · rintro ⟨h1, h2⟩; exact ⟨h1, (H.matchHash_bit g x p h1).mpr h2⟩

theorem cell_gp (t : Table K V) {g p : Nat} (hp : p < L.S) :
    cell H t (g * L.S + p) = H.view (t.grp g) p := by
  unfold cell
  have hS := H.S_pos
  rw [show (g * L.S + p) / L.S = g by
        rw [Nat.mul_comm, Nat.mul_add_div hS, Nat.div_eq_of_lt hp]; omega,
      show (g * L.S + p) % L.S = p by
        rw [Nat.mul_comm, Nat.mul_add_mod, Nat.mod_eq_of_lt hp]]

theorem gp_div {g p : Nat} (hp : p < L.S) : (g * L.S + p) / L.S = g := by
  rw [Nat.mul_comm, Nat.mul_add_div (by omega), Nat.div_eq_of_lt hp]; omega

theorem gp_mod {g p : Nat} (hp : p < L.S) : (g * L.S + p) % L.S = p := by
  rw [Nat.mul_comm, Nat.mul_add_mod, Nat.mod_eq_of_lt hp]

theorem gp_lt {g p G : Nat} (hp : p < L.S) (hg : g < G) : g * L.S + p < G * L.S := by
  have : (g + 1) * L.S ≤ G * L.S := Nat.mul_le_mul_right _ hg
  rw [Nat.add_mul] at this; omega

theorem gp_eta (i : Nat) : (i / L.S) * L.S + i % L.S = i := by
  rw [Nat.mul_comm]; exact Nat.div_add_mod i L.S

end

namespace InvA
variable {K V : Type} {L : Layout} {H : Laws L} {E : Env K} {t : Table K V}

theorem idx_lt (hI : InvA H E t) {i : Nat} {e : K × V} (h : t.slot i = some e) :
    i < (t.gmask + 1) * L.S := by
  by_contra hc
  rw [hI.oob i (by omega)] at h; cases h

theorem home_lt (_ : InvA H E t) {j : Nat} (hj : j ≤ 51) (hs : t.shift = 64 - j) (k : K) :
    t.home E k < 2 ^ j := by
  unfold Table.home
  rw [hs]
  apply Nat.div_lt_of_lt_mul
  rw [← Nat.pow_add, show 64 - j + j = 64 by omega]
  exact Nat.mod_lt _ (by unfold W; positivity)

theorem probe_le (hI : InvA H E t) (k : K) (n : Nat) : probe t.gmask (t.home E k) n ≤ t.gmask := by
  obtain ⟨j, _, hj, hg, hs⟩ := hI.geom
  have := probe_lt (hI.home_lt hj hs k) n
  rw [hg]; omega

/-- Slots whose control byte matches are constructed. -/
theorem matched_some (hI : InvA H E t) {g x p : Nat} (hg : g ≤ t.gmask)
    (hp : p ∈ bitsOf (L.matchHash (t.grp g) (L.tag x))) : (t.slot (g * L.S + p)).isSome := by
  obtain ⟨hpS, hv⟩ := (mem_bits_matchHash H _ _ _).mp hp
  exact hI.isome _ (L.tag x) (gp_lt hpS (by omega)) (by rw [cell_gp H t hpS]; exact hv)

theorem find_some (hI : InvA H E t) (hE : E.Lawful) {i : Nat} {e : K × V} {k : K}
    (hi : t.slot i = some e) (hk : E.eq k e.1 = true) :
    find L E t k = .ok (some (i / L.S, i % L.S)) := by
  have hhash : E.h k = E.h e.1 := by unfold Env.h; rw [hE.congr _ _ hk]
  obtain ⟨n0, hn0, hp0, hov⟩ := hI.reach i e hi
  have hhome : t.home E e.1 = t.home E k := by unfold Table.home; rw [hhash]
  rw [hhome] at hp0 hov
  rw [← hhash] at hov
  obtain ⟨j, _, hj, hgm, hs⟩ := hI.geom
  have hhl := hI.home_lt hj hs k
  have hS := H.S_pos
  have hiS : i % L.S < L.S := Nat.mod_lt _ hS
  have hilt := hI.idx_lt hi
  have key : ∀ f n, n ≤ n0 → n0 - n < f →
      findLoop L E t k (L.tag (E.h k)) f (Prober.iter t.gmask (Prober.mk0 (t.home E k)) n)
        = .ok (some (i / L.S, i % L.S)) := by
    intro f
    induction f with
    | zero => intro n _ h; omega
    | succ f ih =>
      intro n hn hf
      have hle := hI.probe_le k n
      have hr : t.readable (probe t.gmask (t.home E k) n) = true := by
        simp [Table.readable, hI.alloc, hle]
      unfold findLoop
      simp only [show (Prober.iter t.gmask (Prober.mk0 (t.home E k)) n).get
        = probe t.gmask (t.home E k) n from rfl, hr, if_true]
      rw [scanGroup_ok E t k _ _ (fun p hp => hI.matched_some hle hp)]
      simp only [Res.bind_ok]
      by_cases hnn : n = n0
      · subst hnn
        have hmem : i % L.S ∈ bitsOf (L.matchHash (t.grp (i / L.S)) (L.tag (E.h k))) := by
          rw [mem_bits_matchHash H]
          refine ⟨hiS, ?_⟩
          have := hI.used i e hilt hi
          unfold cell at this
          rw [this, hhash]
        rw [hp0]
        have hfind : (bitsOf (L.matchHash (t.grp (i / L.S)) (L.tag (E.h k)))).find?
            (hit E t k (i / L.S * L.S)) = some (i % L.S) := by
          have hhit : hit E t k (i / L.S * L.S) (i % L.S) = true := by
            unfold hit; rw [gp_eta, hi]; exact hk
          cases hq : (bitsOf (L.matchHash (t.grp (i / L.S)) (L.tag (E.h k)))).find?
              (hit E t k (i / L.S * L.S)) with
          | none =>
            rw [List.find?_eq_none] at hq
            exact absurd hhit (hq _ hmem)
          | some p =>
            have h1 := List.find?_some hq
            have h2 := List.mem_of_find?_eq_some hq
            have hpS := ((mem_bits_matchHash H _ _ _).mp h2).1
            unfold hit at h1
            cases hsl : t.slot (i / L.S * L.S + p) with
            | none => rw [hsl] at h1; simp at h1
            | some e' =>
              rw [hsl] at h1
              have hee : E.eq e.1 e'.1 = true := hE.trans _ _ _ (hE.symm _ _ hk) h1
              have := hI.uniq _ _ _ _ hi hsl hee
              have hm : i % L.S = p := by rw [this]; exact gp_mod hpS
              rw [hm]
        rw [hfind]
      · have hnlt : n < n0 := by omega
        have hne : probe t.gmask (t.home E k) n ≠ i / L.S := by
          intro hc
          rw [← hp0] at hc
          rw [hgm] at hc
          have := probe_inj hhl (by omega : n < 2 ^ j) (by omega : n0 < 2 ^ j) hc
          omega
        have hfind : (bitsOf (L.matchHash (t.grp (probe t.gmask (t.home E k) n)) (L.tag (E.h k)))).find?
            (hit E t k (probe t.gmask (t.home E k) n * L.S)) = none := by
          rw [List.find?_eq_none]
          intro p hp h1
          have hpS := ((mem_bits_matchHash H _ _ _).mp hp).1
          unfold hit at h1
          cases hsl : t.slot (probe t.gmask (t.home E k) n * L.S + p) with
          | none => rw [hsl] at h1; simp at h1
          | some e' =>
            rw [hsl] at h1
            have hee : E.eq e.1 e'.1 = true := hE.trans _ _ _ (hE.symm _ _ hk) h1
            have := hI.uniq _ _ _ _ hi hsl hee
            exact hne (by rw [this, gp_div hpS])
        rw [hfind]
        simp only [hov n hnlt, Bool.not_true, Bool.false_eq_true, if_false]
        rw [iter_next_more, iter_next]
        simp only [show n + 1 ≤ t.gmask by omega, decide_true, if_true]
        exact ih (n + 1) (by omega) (by omega)
  exact key (t.gmask + 2) 0 (by omega) (by omega)

theorem find_none (hI : InvA H E t) {k : K}
    (hk : ∀ i e, t.slot i = some e → E.eq k e.1 = false) : find L E t k = .ok none := by
  have key : ∀ f n, n ≤ t.gmask → t.gmask - n < f →
      findLoop L E t k (L.tag (E.h k)) f (Prober.iter t.gmask (Prober.mk0 (t.home E k)) n)
        = .ok none := by
    intro f
    induction f with
    | zero => intro n _ h; omega
    | succ f ih =>
      intro n hn hf
      have hle := hI.probe_le k n
      have hr : t.readable (probe t.gmask (t.home E k) n) = true := by
        simp [Table.readable, hI.alloc, hle]
      unfold findLoop
      simp only [show (Prober.iter t.gmask (Prober.mk0 (t.home E k)) n).get
        = probe t.gmask (t.home E k) n from rfl, hr, if_true]
      rw [scanGroup_ok E t k _ _ (fun p hp => hI.matched_some hle hp)]
      simp only [Res.bind_ok]
      have hfind : (bitsOf (L.matchHash (t.grp (probe t.gmask (t.home E k) n)) (L.tag (E.h k)))).find?
          (hit E t k (probe t.gmask (t.home E k) n * L.S)) = none := by
        rw [List.find?_eq_none]
        intro p _ h1
        unfold hit at h1
        cases hsl : t.slot (probe t.gmask (t.home E k) n * L.S + p) with
        | none => rw [hsl] at h1; simp at h1
        | some e' =>
          rw [hsl] at h1
          have := hk _ _ hsl
          simp only [this] at h1
          exact absurd h1 (by simp)
      rw [hfind]
      simp only
      split
      · rfl
      · rw [iter_next_more, iter_next]
        by_cases hmore : n + 1 ≤ t.gmask
        · simp only [hmore, decide_true, if_true]
          exact ih (n + 1) hmore (by omega)
        · simp [hmore]
  exact key (t.gmask + 2) 0 (by omega) (by omega)

end InvA
end Verif
