/-
The bucket interface: `bucket`, `bucket_count`, `bucket_size` (C145).

RH = src/jstd/hashmap/robin_hash_map.h, R16 = src/jstd/hashmap/robin16_hash_map.h, FL = src/jstd/hashmap/flat16_hash_map.h,
T16 = src/jstd/hashmap/group16_flat_table.hpp.

`bucket(key)` of group15 assigns a `flat_map_locator15`, which converts to nothing but (explicitly) `bool`, to a `size_type`; it cannot be instantiated.
flat16, robin16 and robin have no `bucket_size`.
-/
import Verif.RobIndRange
import Verif.Rob16Bugs
import Verif.FlatBugs
import Verif.ReserveFlat
import Verif.FnCopy
import Verif.Range16

namespace Verif.Buckets

section Model
variable {K V : Type} (E : Env K) (sec : Nat → Nat)

/-- `bucket_count()` of flat16 (FL:1115-1117) and robin16 (R16:1492-1494): `kGroupWidth`. -/
def countWidth : Nat := 16

/-- `bucket(key)` of flat16 (FL:1119-1122). -/
def bucketFlat (t : Flat.Map K V) (k : K) : Res Nat :=
  (Flat.findIdx E sec t k).bind fun
    | some i => .ok (i / 16)
    | none => .ok (W - 1)

/-- `bucket(key)` of robin16 (R16:1496-1499). -/
def bucketRob16 (t : Rob16.Map K V) (k : K) : Res Nat :=
  (Rob16.findIdx E sec t k).bind fun
    | some i => .ok i
    | none => .ok (Rob16.cap t)

/-- `bucket_count()` of robin, direct layout (RH:3303-3305): the number of elements. -/
def countRobin (t : Robin.Map K V) : Nat := t.size

/-- `bucket(key)` of robin, direct layout (RH:3307-3310, 5255-5257, 5284-5364). -/
def bucketRobin (t : Robin.Map K V) (k : K) : Res Nat :=
  (Robin.findIdx false false E t k).bind fun
    | some i => .ok i
    | none => .ok (Robin.maxCap t)

/-- `bucket_count()` of robin, indirect layout (RH:3303-3305). -/
def countRobInd (t : RobInd.Map K V) : Nat := t.size

/-- `bucket(key)` of robin, indirect layout (RH:3307-3310, 5423-5456): the index of the control word. -/
def bucketRobInd (t : RobInd.Map K V) (k : K) : Res Nat :=
  (RobInd.findCtrlIdx false E t k).bind fun
    | some i => .ok i
    | none => .ok (RobInd.maxCap t)

/-- `bucket_count()` of group16 (T16:555): `slot_mask_` is -1 without storage (T16:282, 531). -/
def countGroup16 (t : Table K V) : Nat := t.capacity layout16

/-- `bucket_size(n)` of group16 (T16:554). -/
def bucketSize16 (_t : Table K V) (_n : Nat) : Nat := 1

/-- `bucket(key)` of group16 (T16:560-563, 2116-2169). -/
def bucketGroup16 (t : Table K V) (k : K) : Res Nat :=
  (find layout16 E t k).bind fun
    | some (g, p) => .ok (g * 16 + p)
    | none => .ok (t.slotCap layout16)

end Model

/-! ### Lemmas -/

/-- Elements at different places, fewer of them below `n` than there are: one is at `n` or behind it. -/
theorem some_behind {α : Type} {l : List α} (hd : l.Nodup) {S : Nat → Option α} {P : α → Nat → Prop}
    (hp : ∀ a ∈ l, ∃ i, P a i ∧ S i = some a) {n : Nat} (hn : ((List.range n).filter fun i => (S i).isSome).length < l.length) :
    ∃ a ∈ l, ∃ i, P a i ∧ n ≤ i := by
  apply Classical.byContradiction
  intro hc
  have hlt : ∀ a ∈ l, ∀ i, P a i → i < n := fun a ha i hi => Nat.lt_of_not_le fun h => hc ⟨a, ha, i, hi, h⟩
  have hsub : l ⊆ ((List.range n).filter fun i => (S i).isSome).filterMap S := by
    intro a ha
    obtain ⟨i, h1, h2⟩ := hp a ha
    exact List.mem_filterMap.mpr ⟨i, List.mem_filter.mpr ⟨List.mem_range.mpr (hlt a ha i h1), by rw [h2]; rfl⟩, h2⟩
  have h1 := (List.subperm_of_subset hd hsub).length_le
  have h2 := List.length_filterMap_le S ((List.range n).filter fun i => (S i).isSome)
  omega

section Lemmas
variable {K V : Type} {E : Env K} {sec : Nat → Nat}

theorem nodup_of_distinct (hE : E.Lawful) {l : List (K × V)} (h : Spec.Distinct E.eq l) : l.Nodup :=
  List.Pairwise.imp (fun {a b} hab he => by subst he; rw [hE.refl] at hab; cases hab) h

theorem same_of_get (hE : E.Lawful) {l : List (K × V)} (h : Spec.Distinct E.eq l) {e x : K × V} (he : e ∈ l)
    (hx : Spec.get E.eq l e.1 = some x) : x = e := by
  have := (Spec.get_some_iff hE h).mpr ⟨he, hE.refl e.1⟩
  rw [hx] at this
  exact Option.some.inj this

/-- Where flat16 finds an element. -/
theorem flat_at (hE : E.Lawful) {t : Flat.Map K V} (h : Flat.Inv0 E sec t) {e : K × V} (he : e ∈ Flat.entries t) :
    ∃ i, Flat.findIdx E sec t e.1 = .ok (some i) ∧ i < Flat.cap t ∧ t.slot i = some e := by
  rcases Flat.findIdx_spec hE h e.1 with ⟨i, x, h1, h2, h3, _, h5⟩ | ⟨_, _, h3⟩
  · rw [same_of_get hE h.distinct he h5] at h3
    exact ⟨i, h1, h2, h3⟩
  · rw [(Spec.get_some_iff hE h.distinct).mpr ⟨he, hE.refl e.1⟩] at h3
    cases h3

/-- Where robin16 finds an element. -/
theorem rob16_at (hE : E.Lawful) {t : Rob16.Map K V} (h : Rob16.Inv E sec t) {e : K × V} (he : e ∈ Rob16.entries t) (hk : Rob16.TagOk E sec t e.1) :
    ∃ i, Rob16.findIdx E sec t e.1 = .ok (some i) ∧ i < Rob16.cap t ∧ t.slot i = some e := by
  obtain ⟨j, g1, g2, g3⟩ := (Rob16.mem_entries h.toBase).mp he
  rcases Rob16.findIdx_spec h.toCore hE hk with ⟨i, h1, h2, h3, x, h4, h5⟩ | ⟨_, h2⟩
  · have hx : x ∈ Rob16.entries t := (Rob16.mem_entries h.toBase).mpr ⟨i, h2, h3, h4⟩
    have := same_of_get hE h.distinct he ((Spec.get_some_iff hE h.distinct).mpr ⟨hx, hE.symm _ _ h5⟩)
    rw [this] at h4
    exact ⟨i, h1, h2, h4⟩
  · exact absurd ⟨g2, e, g3, hE.refl e.1⟩ (h2 j g1)

/-- Where robin finds an element. -/
theorem robin_at (hE : E.Lawful) {t : Robin.Map K V} (h : Robin.Reach E t) {e : K × V} (he : e ∈ Robin.entries t) :
    ∃ i, Robin.findIdx false false E t e.1 = .ok (some i) ∧ i < t.slen ∧ t.slot i = some e := by
  rcases h.st with hf | ⟨c, hl⟩
  · rw [hf.entries] at he; cases he
  · have hs := Robin.findIdx_spec hE hl.toGood e.1
    have hg := (Spec.get_some_iff hE hl.distinct).mpr ⟨he, hE.refl e.1⟩
    cases hx : Robin.findIdx false true E t e.1 with
    | ok r =>
      rw [hx] at hs
      cases r with
      | some i =>
        obtain ⟨h1, x, h2, h3⟩ := hs
        rw [same_of_get hE hl.distinct he h3] at h2
        refine ⟨i, ?_, h1, h2⟩
        rcases Robin.findIdx_chk (store := false) (E := E) t e.1 with h4 | h4
        · rw [hx] at h4; cases h4
        · rw [← h4, hx]
      | none =>
        have hs' : Spec.get E.eq (Robin.entries t) e.1 = none := hs
        rw [hg] at hs'; cases hs'
    | diverge => rw [hx] at hs; exact hs.elim
    | ub => rw [hx] at hs; have := hs.2; rw [hg] at this; cases this

/-- Where robin with the indirect layout finds the control word of an element. -/
theorem robInd_at (hE : E.Lawful) {t : RobInd.Map K V} (h : RobInd.Reach E t) {e : K × V} (he : e ∈ RobInd.entries t) :
    ∃ i, RobInd.findCtrlIdx false E t e.1 = .ok (some i) ∧ i < t.slen ∧ 0 ≤ (t.ctrl i).dist ∧ t.slot (t.ctrl i).idx = some e := by
  rcases h.st with hf | ⟨c, hl⟩
  · rw [hf.entries] at he; cases he
  · have hd := hl.toGood.distinct hE
    have hs := RobInd.findCtrlIdx_spec hE hl.toGood e.1
    have hg := (Spec.get_some_iff hE hd).mpr ⟨he, hE.refl e.1⟩
    cases hx : RobInd.findCtrlIdx true E t e.1 with
    | ok r =>
      rw [hx] at hs
      cases r with
      | some i =>
        obtain ⟨h1, h0, x, h2, h3⟩ := hs
        rw [same_of_get hE hd he h3] at h2
        refine ⟨i, ?_, h1, h0, h2⟩
        rcases RobInd.findCtrlIdx_chk (E := E) t e.1 with h4 | h4
        · rw [hx] at h4; cases h4
        · rw [← h4, hx]
      | none =>
        have hs' : Spec.get E.eq (RobInd.entries t) e.1 = none := hs
        rw [hg] at hs'; cases hs'
    | diverge => rw [hx] at hs; exact hs.elim
    | ub => rw [hx] at hs; have := hs.2; rw [hg] at this; cases this

theorem filter_range_lt {n i : Nat} (hi : i < n) {p : Nat → Bool} (hp : p i = false) : ((List.range n).filter p).length < n := by
  have h1 := List.length_filter_lt_length_iff_exists (l := List.range n) (p := p)
  rw [List.length_range] at h1
  exact h1.mpr ⟨i, List.mem_range.mpr hi, by simp [hp]⟩

theorem filter_range_le (n : Nat) (p : Nat → Bool) : ((List.range n).filter p).length ≤ n := by
  have := List.length_filter_le p (List.range n)
  rw [List.length_range] at this
  exact this

end Lemmas

/-! ### C145 -/

section Claims
variable {K V : Type} {E : Env K} {sec : Nat → Nat}

/-- C145, flat16 (partial): in a map of at most 256 slots the bucket of every element is below `bucket_count()`.  Missing: larger maps, see
`C145_flat16_beyond`. -/
theorem C145_flat16_partial (hE : E.Lawful) {clean : Bool} {t : Flat.Map K V} (hR : Flat.Reach clean E sec t) (hc : Flat.cap t ≤ 256) :
    ∀ e ∈ Flat.entries t, ∃ b, bucketFlat E sec t e.1 = .ok b ∧ b < countWidth := by
  intro e he
  obtain ⟨i, h1, h2, _⟩ := flat_at hE hR.toInv0 he
  refine ⟨i / 16, by unfold bucketFlat; rw [h1]; rfl, ?_⟩
  unfold countWidth
  omega

/-- C145, flat16, violated: as soon as a map has more than 256 elements, one of them is in a bucket that does not exist. -/
theorem C145_flat16_beyond (hE : E.Lawful) {clean : Bool} {t : Flat.Map K V} (hR : Flat.Reach clean E sec t) (hs : 256 < t.size) :
    ∃ e ∈ Flat.entries t, ∃ b, bucketFlat E sec t e.1 = .ok b ∧ countWidth ≤ b := by
  obtain ⟨e, he, i, h1, h2⟩ := some_behind (nodup_of_distinct hE hR.distinct) (S := t.slot)
    (P := fun e i => Flat.findIdx E sec t e.1 = .ok (some i)) (n := 256)
    (fun e he => by obtain ⟨i, h1, _, h3⟩ := flat_at hE hR.toInv0 he; exact ⟨i, h1, h3⟩)
    (by have := filter_range_le 256 (fun i => (t.slot i).isSome); have := hR.size; omega)
  refine ⟨e, he, i / 16, by unfold bucketFlat; rw [h1]; rfl, ?_⟩
  unfold countWidth
  omega

/-- C145, robin16 (partial): in a map of at most 16 slots the bucket of every element is below `bucket_count()` (for keys whose control hash is not 0
when there are fewer slots than 16).  Missing: larger maps, see `C145_robin16_beyond`. -/
theorem C145_robin16_partial (hE : E.Lawful) {t : Rob16.Map K V} (hR : Rob16.Reach E sec t) (hc : Rob16.cap t ≤ 16) :
    ∀ e ∈ Rob16.entries t, Rob16.TagOk E sec t e.1 → ∃ b, bucketRob16 E sec t e.1 = .ok b ∧ b < countWidth := by
  intro e he hk
  obtain ⟨i, h1, h2, _⟩ := rob16_at hE hR.toInv he hk
  refine ⟨i, by unfold bucketRob16; rw [h1]; rfl, ?_⟩
  unfold countWidth
  omega

/-- C145, robin16, violated: as soon as a map has more than 16 elements, one of them is in a bucket that does not exist. -/
theorem C145_robin16_beyond (hE : E.Lawful) {t : Rob16.Map K V} (hR : Rob16.Reach E sec t) (hs : 16 < t.size) :
    ∃ e ∈ Rob16.entries t, ∃ b, bucketRob16 E sec t e.1 = .ok b ∧ countWidth ≤ b := by
  have hroom := hR.room
  have hsz := hR.size
  obtain ⟨e, he, i, h1, h2⟩ := some_behind (nodup_of_distinct hE hR.distinct) (S := t.slot)
    (P := fun e i => Rob16.findIdx E sec t e.1 = .ok (some i)) (n := 16)
    (fun e he => by obtain ⟨i, h1, _, h3⟩ := rob16_at hE hR.toInv he (Or.inl (by omega)); exact ⟨i, h1, h3⟩)
    (by have := filter_range_le 16 (fun i => (t.slot i).isSome); omega)
  exact ⟨e, he, i, by unfold bucketRob16; rw [h1]; rfl, h2⟩

/-- C145, robin (partial): every element has a bucket of its own, the position where it is stored.  Missing: this position may not be below
`bucket_count()`, see `C145_robin_beyond`. -/
theorem C145_robin_own_bucket_partial (hE : E.Lawful) {rv : Nat → Nat} (hrv : ∀ x, 256 ≤ rv x ∧ rv x ≤ 1024) {cs : List (Bool × Spec.Call K V)}
    {t : Robin.Map K V} (ht : Robin.Reached E rv cs t) {a b : K × V} (ha : a ∈ Robin.contents E.eq cs) (hb : b ∈ Robin.contents E.eq cs) :
    ∃ i j, bucketRobin E t a.1 = .ok i ∧ bucketRobin E t b.1 = .ok j ∧ (i = j → a = b) := by
  obtain ⟨hR, hp⟩ := ht.reach hE hrv
  obtain ⟨i, h1, _, h2⟩ := robin_at hE hR (hp.mem_iff.mpr ha)
  obtain ⟨j, h3, _, h4⟩ := robin_at hE hR (hp.mem_iff.mpr hb)
  refine ⟨i, j, by unfold bucketRobin; rw [h1]; rfl, by unfold bucketRobin; rw [h3]; rfl, ?_⟩
  intro h
  subst h
  rw [h2] at h4
  exact Option.some.inj h4

/-- C145, robin, violated: `bucket_count()` is the number of elements, so unless they fill the first positions without a gap, one of them is in a bucket
that does not exist. -/
theorem C145_robin_beyond (hE : E.Lawful) {rv : Nat → Nat} (hrv : ∀ x, 256 ≤ rv x ∧ rv x ≤ 1024) {cs : List (Bool × Spec.Call K V)}
    {t : Robin.Map K V} (ht : Robin.Reached E rv cs t) {g : Nat} (hg : g < countRobin t) (hn : t.slot g = none) :
    ∃ e ∈ Robin.contents E.eq cs, ∃ b, bucketRobin E t e.1 = .ok b ∧ countRobin t ≤ b := by
  obtain ⟨hR, hp⟩ := ht.reach hE hrv
  have hsz : t.size = (Robin.entries t).length ∧ Spec.Distinct E.eq (Robin.entries t) := by
    rcases hR.st with hf | ⟨c, hl⟩
    · have he := hf.entries
      obtain ⟨m, r, rfl⟩ := hf
      exact absurd hg (Nat.not_lt_zero _)
    · exact ⟨hl.size, hl.distinct⟩
  obtain ⟨e, he, i, h1, h2⟩ := some_behind (nodup_of_distinct hE hsz.2) (S := t.slot)
    (P := fun e i => Robin.findIdx false false E t e.1 = .ok (some i)) (n := t.size)
    (fun e he => by obtain ⟨i, h1, _, h3⟩ := robin_at hE hR he; exact ⟨i, h1, h3⟩)
    (by rw [← hsz.1]; exact filter_range_lt hg (by rw [hn]; rfl))
  exact ⟨e, hp.mem_iff.mp he, i, by unfold bucketRobin; rw [h1]; rfl, h2⟩

/-- C145, robin with the indirect layout, violated: as `C145_robin_beyond`, with the control words. -/
theorem C145_indirect_beyond (hE : E.Lawful) {rv : Nat → Nat} (hrv : ∀ x, 256 ≤ rv x ∧ rv x ≤ 1024) {cs : List (Bool × Spec.Call K V)}
    {t : RobInd.Map K V} (ht : RobInd.Reached E rv cs t) {g : Nat} (hg : g < countRobInd t) (hn : (t.ctrl g).dist < 0) :
    ∃ e ∈ Robin.contents E.eq cs, ∃ b, bucketRobInd E t e.1 = .ok b ∧ countRobInd t ≤ b := by
  obtain ⟨hR, hp, _⟩ := ht.reach hE hrv
  have hsz : t.size = (RobInd.entries t).length ∧ Spec.Distinct E.eq (RobInd.entries t) := by
    rcases hR.st with hf | ⟨c, hl⟩
    · obtain ⟨m, r, rfl⟩ := hf
      exact absurd hg (Nat.not_lt_zero _)
    · refine ⟨?_, hl.toGood.distinct hE⟩
      rw [← (hl.toGood.entries_perm hE).length_eq, ← hl.toGood.abs.size]
      rfl
  obtain ⟨e, he, i, h1, h2⟩ := some_behind (nodup_of_distinct hE hsz.2) (S := fun i => if 0 ≤ (t.ctrl i).dist then t.slot (t.ctrl i).idx else none)
    (P := fun e i => RobInd.findCtrlIdx false E t e.1 = .ok (some i)) (n := t.size)
    (fun e he => by
      obtain ⟨i, h1, _, h0, h3⟩ := robInd_at hE hR he
      exact ⟨i, h1, by rw [if_pos h0]; exact h3⟩)
    (by rw [← hsz.1]; exact filter_range_lt hg (by rw [if_neg (by omega)]; rfl))
  exact ⟨e, hp.mem_iff.mp he, i, by unfold bucketRobInd; rw [h1]; rfl, h2⟩

/-- C145, group16 (partial): the bucket of an element is below `bucket_count()`, and no other element is in it.  Missing: `bucket_size`, see
`C145_group16_bucket_size`. -/
theorem C145_group16_bucket_partial (hE : E.Lawful) {pad : Bool} {t : Table K V} (ht : Reachable layout16 E (walk16 pad) t) :
    (∀ e ∈ entries layout16 t, ∃ b, bucketGroup16 E t e.1 = .ok b ∧ b < countGroup16 t) ∧
    (∀ a ∈ entries layout16 t, ∀ b ∈ entries layout16 t, bucketGroup16 E t a.1 = bucketGroup16 E t b.1 → a = b) := by
  have hI := ht.inv16 hE
  have key : ∀ e ∈ entries layout16 t, ∃ i, i < (t.gmask + 1) * 16 ∧ t.slot i = some e ∧ bucketGroup16 E t e.1 = .ok i := by
    intro e he
    obtain ⟨i, h1, h2⟩ := mem_entries.mp he
    refine ⟨i, h1, h2, ?_⟩
    unfold bucketGroup16
    rw [hI.find_some hE h2 (hE.refl e.1)]
    show Res.ok (i / 16 * 16 + i % 16) = .ok i
    congr 1
    omega
  constructor
  · intro e he
    obtain ⟨i, h1, h2, h3⟩ := key e he
    refine ⟨i, h3, ?_⟩
    have ha : t.alloc = true := by
      rcases hI.st with h | h
      · rw [h] at h2; cases h2
      · exact h.alloc
    show i < t.capacity layout16
    unfold Table.capacity
    rw [if_pos ha]
    exact h1
  · intro a ha b hb h
    obtain ⟨i, _, h1, h2⟩ := key a ha
    obtain ⟨j, _, h3, h4⟩ := key b hb
    rw [h2, h4] at h
    cases h
    rw [h1] at h3
    exact Option.some.inj h3

/-- C145, group16, violated: in every map with fewer elements than slots there is a bucket that contains no element and has `bucket_size` 1. -/
theorem C145_group16_bucket_size (hE : E.Lawful) {pad : Bool} {t : Table K V} (ht : Reachable layout16 E (walk16 pad) t)
    (hs : (entries layout16 t).length < countGroup16 t) :
    ∃ n, n < countGroup16 t ∧ bucketSize16 t n = 1 ∧ ∀ e ∈ entries layout16 t, bucketGroup16 E t e.1 ≠ .ok n := by
  have hI := ht.inv16 hE
  have hce : countGroup16 t = (t.gmask + 1) * 16 := by
    unfold countGroup16 Table.capacity at hs ⊢
    split at hs
    · rename_i ha; rw [if_pos ha]; rfl
    · exact absurd hs (Nat.not_lt_zero _)
  have hex : ∃ n, n < countGroup16 t ∧ t.slot n = none := by
    apply Classical.byContradiction
    intro hc
    have hall : ∀ n, n ∈ List.range ((t.gmask + 1) * 16) → (t.slot n).isSome = true := by
      intro n hn
      cases h : t.slot n with
      | some e => rfl
      | none => exact absurd ⟨n, by rw [hce]; exact List.mem_range.mp hn, h⟩ hc
    have h1 : (entries layout16 t).length = (t.gmask + 1) * 16 := by
      show ((List.range ((t.gmask + 1) * 16)).filterMap t.slot).length = _
      rw [List.length_filterMap_eq_countP, List.countP_eq_length.mpr hall, List.length_range]
    omega
  obtain ⟨n, h1, h2⟩ := hex
  refine ⟨n, h1, rfl, ?_⟩
  intro e he h
  obtain ⟨i, h3, h4⟩ := mem_entries.mp he
  unfold bucketGroup16 at h
  rw [hI.find_some hE h4 (hE.refl e.1)] at h
  have h5 : i / 16 * 16 + i % 16 = n := by
    have : Res.ok (i / 16 * 16 + i % 16) = Res.ok n := h
    exact Res.ok.inj this
  rw [show i / 16 * 16 + i % 16 = i by omega] at h5
  subst h5
  rw [h4] at h2
  cases h2

end Claims

/-! ### Examples -/

/-- The elements `(0, 0)`, …, `(j - 1, j - 1)`, the last one first. -/
def upTo : Nat → List (Nat × Nat)
  | 0 => []
  | j + 1 => (j, j) :: upTo j

theorem upTo_lt : ∀ (j : Nat) (e : Nat × Nat), e ∈ upTo j → e.1 < j
  | 0, _, h => by cases h
  | j + 1, e, h => by
    rcases List.mem_cons.mp h with h | h
    · subst h; exact Nat.lt_succ_self j
    · exact Nat.lt_succ_of_lt (upTo_lt j e h)

theorem upTo_length : ∀ j, (upTo j).length = j
  | 0 => rfl
  | j + 1 => congrArg (· + 1) (upTo_length j)

/-- A flat16 map of 1024 slots filled with `j` elements. -/
theorem flat_many : ∀ j, j ≤ 512 → ∃ t : Flat.Map Nat Nat, Flat.Tidy (Robin.hashEnv id) id t ∧ Flat.cap t = 1024 ∧ (Flat.entries t).Perm (upTo j)
  | 0, _ => by
    have h : ∃ t : Flat.Map Nat Nat, Flat.make .ok 1024 = .ok t () ∧ Flat.cap t = 1024 := ⟨_, rfl, by decide⟩
    obtain ⟨t, h1, h2⟩ := h
    obtain ⟨h3, h4⟩ := Flat.make_tidy (E := Robin.hashEnv id) (sec := id) h1
    exact ⟨t, h3, h2, by rw [h4]; exact List.Perm.refl _⟩
  | j + 1, hj => by
    obtain ⟨t, h1, h2, h3⟩ := flat_many j (by omega)
    have hg : Spec.get (Robin.hashEnv id).eq (upTo j) j = none := by
      unfold Spec.get
      rw [List.find?_eq_none]
      intro e he h
      have := upTo_lt j e he
      have h' : j = e.1 := by simpa [Robin.hashEnv] using h
      omega
    have hn : Flat.next (Robin.hashEnv id).eq (upTo j) (.insert j j) = upTo (j + 1) := Spec.insert_absent hg j
    obtain ⟨t', _, _, h5, h6, h7, _⟩ := Flat.exec_room (Robin.hashEnv_lawful id) (rv := fun _ => 131072) (by intro x; omega) h1 h3 (mem := .ok)
      (c := .insert j j) trivial (n := 512) (by omega) (by rw [hn, upTo_length]; exact hj) (by intro k h; cases h)
    exact ⟨t', h6, by omega, by rw [hn] at h7; exact h7⟩

/-- C145, flat16: 257 elements. -/
example : ∃ t : Flat.Map Nat Nat, Flat.Reach true (Robin.hashEnv id) id t ∧ 256 < t.size := by
  obtain ⟨t, h1, _, h3⟩ := flat_many 257 (by omega)
  exact ⟨t, h1.reach, by rw [h1.reach.size, h3.length_eq, upTo_length]; omega⟩

/-- C145, flat16: two elements, at most 256 slots. -/
example : ∃ t : Flat.Map Nat Nat, Flat.Reach true (Flat.modulus 10) id t ∧ (decide (Flat.cap t ≤ 256) && t.size == 2) = true :=
  Flat.reach_of (l := [(3, 30), (4, 40)]) (by decide +kernel)

/-- C145, robin16: 17 elements. -/
example : ∃ t : Rob16.Map Nat Nat, Rob16.Reach (Robin.hashEnv id) Rob16.odd t ∧ 16 < t.size := by
  have h : (match Rob16.ofList (Robin.hashEnv id) Rob16.odd .ok 0 ((List.range 17).map fun k => (k, k)) with
      | .ok t _ => decide (16 < t.size) | _ => false) = true := by decide +kernel
  cases hc : Rob16.ofList (Robin.hashEnv id) Rob16.odd .ok 0 ((List.range 17).map fun k => (k, k)) with
  | ok t u =>
    rw [hc] at h
    exact ⟨t, (Rob16.C90_from_range_partial (Robin.hashEnv_lawful id) (by simp) 0 _ (by simp) (Or.inr (by simp)) (by decide) hc).1,
      of_decide_eq_true h⟩
  | throw t => rw [hc] at h; cases h
  | diverge => rw [hc] at h; cases h
  | ub => rw [hc] at h; cases h

/-- C145, robin16: five elements, at most 16 slots. -/
example : ∃ t : Rob16.Map Nat Nat, Rob16.Reach (Robin.hashEnv id) Rob16.odd t ∧ t.size = 5 ∧ Rob16.cap t ≤ 16 := by
  have h : (match Rob16.ofList (Robin.hashEnv id) Rob16.odd .ok 0 ((List.range 5).map fun k => (k, k)) with
      | .ok t _ => decide (t.size = 5 ∧ Rob16.cap t ≤ 16) | _ => false) = true := by decide +kernel
  cases hc : Rob16.ofList (Robin.hashEnv id) Rob16.odd .ok 0 ((List.range 5).map fun k => (k, k)) with
  | ok t u =>
    rw [hc] at h
    exact ⟨t, (Rob16.C90_from_range_partial (Robin.hashEnv_lawful id) (by simp) 0 _ (by simp) (Or.inr (by simp)) (by decide) hc).1,
      of_decide_eq_true h⟩
  | throw t => rw [hc] at h; cases h
  | diverge => rw [hc] at h; cases h
  | ub => rw [hc] at h; cases h

/-- C145, robin: one element, not at the first position; its bucket is 3, `bucket_count()` is 1. -/
example : ∃ t, Robin.Reached modEnv (fun _ => 512) (([.insert 3 1] : List (Spec.Call Nat Nat)).map fun c => (true, c)) t ∧
    (decide (0 < countRobin t) && (t.slot 0).isNone && (match bucketRobin modEnv t 3 with | .ok b => b == 3 | _ => false)) = true :=
  Robin.reached_sat (n := 0) (by decide) (by decide +kernel)

example : ∃ t, RobInd.Reached modEnv (fun _ => 512) (([.insert 3 1] : List (Spec.Call Nat Nat)).map fun c => (true, c)) t ∧
    (decide (0 < countRobInd t) && decide ((t.ctrl 0).dist < 0) && (match bucketRobInd modEnv t 3 with | .ok b => b == 3 | _ => false)) = true :=
  RobInd.reached_sat (n := 0) (by decide) (by decide +kernel)

/-- C145, group16. -/
example : ∃ t : Table Nat Nat, Reachable layout16 idEnv (walk16 true) t ∧ (decide ((entries layout16 t).length < countGroup16 t) && t.size == 20) = true :=
  exists_reachable 0 (insertsFrom 0 20) _ (by decide +kernel)

end Verif.Buckets
