/-
The load of a `robin_hash_map`, direct layout (C109): which calls change the capacity, and how full the map gets.

Abbreviation: RH = src/jstd/hashmap/robin_hash_map.h.
-/
import Verif.RobinBugs

namespace Verif.Robin
open Spec (Distinct Call Ans)

variable {K V : Type} {E : Env K} {store chk : Bool}

/-! ### What the functions do to capacity and threshold -/

/-- Capacity, threshold and load factor are the same. -/
structure Fr (t t' : Map K V) : Prop where
  mask : t'.mask = t.mask
  thr : t'.thr = t.thr
  mlf : t'.mlf = t.mlf
  rev : t'.rev = t.rev

theorem Fr.refl (t : Map K V) : Fr t t := ⟨rfl, rfl, rfl, rfl⟩

theorem Fr.trans {t t' t'' : Map K V} (h : Fr t t') (h' : Fr t' t'') : Fr t t'' :=
  ⟨h'.mask.trans h.mask, h'.thr.trans h.thr, h'.mlf.trans h.mlf, h'.rev.trans h.rev⟩

theorem needGrow_fr {p0 : Nat} {t : Map K V} {r : Ctrl} {q : Map K V × Bool} (h : needGrow p0 t r = .ok q) : Fr t q.1 := by
  unfold needGrow at h
  cases hs : t.slot p0 with
  | none => rw [hs] at h; cases h
  | some e => rw [hs] at h; cases h; exact ⟨rfl, rfl, rfl, rfl⟩

theorem placeLoop_fr (rh : Bool) (p0 : Nat) : ∀ (f : Nat) (t : Map K V) (i : Nat) (r : Ctrl) {q : Map K V × Bool},
    placeLoop store chk rh p0 f t i r = .ok q → Fr t q.1 := by
  intro f
  induction f with
  | zero => intro t i r q h; exact needGrow_fr h
  | succ f ih =>
    intro t i r q h
    unfold placeLoop at h
    split at h
    · cases hs : t.slot p0 with
      | none => rw [hs] at h; cases h
      | some e => rw [hs] at h; cases h; exact ⟨rfl, rfl, rfl, rfl⟩
    · split at h
      · simp only at h
        split at h
        · have := needGrow_fr h
          exact ⟨this.mask, this.thr, this.mlf, this.rev⟩
        · have := ih _ _ _ h
          exact ⟨this.mask, this.thr, this.mlf, this.rev⟩
      · split at h
        · cases h
        · split at h
          · exact needGrow_fr h
          · exact ih _ _ _ h

theorem place_fr {rh : Bool} {t : Map K V} {i : Nat} {d : Ctrl} {q : Map K V × Bool} (h : place store chk rh t i d = .ok q) :
    Fr t q.1 := by
  unfold place at h
  split at h
  · split at h
    · cases h; exact ⟨rfl, rfl, rfl, rfl⟩
    · unfold insertToPlace at h
      cases hl : t.last with
      | none => rw [hl] at h; cases h
      | some n =>
        rw [hl] at h
        have := placeLoop_fr _ _ _ _ _ _ h
        exact ⟨this.mask, this.thr, this.mlf, this.rev⟩
  · cases h

theorem construct_fr {i : Nat} {e : K × V} {t t' : Map K V} (h : construct i e t = .ok t') : Fr t t' := by
  unfold construct at h
  split at h
  · cases h; exact ⟨rfl, rfl, rfl, rfl⟩
  · cases h

theorem res_bind_ok {α β : Type} {x : Res α} {f : α → Res β} {b : β} (h : x.bind f = .ok b) : ∃ a, x = .ok a ∧ f a = .ok b := by
  cases x with
  | ok a => exact ⟨a, rfl, h⟩
  | diverge => cases h
  | ub => cases h

theorem out_bind_ok {σ α β : Type} {x : Out σ α} {f : σ → α → Out σ β} {t' : σ} {b : β} (h : x.bind f = .ok t' b) :
    ∃ s a, x = .ok s a ∧ f s a = .ok t' b := by
  cases x with
  | ok s a => exact ⟨s, a, rfl, h⟩
  | throw s => cases h
  | diverge => cases h
  | ub => cases h

theorem insertNoGrow_fr {hash : Nat} {e : K × V} {t t' : Map K V} (h : insertNoGrow store chk E hash e t = .ok t') : Fr t t' := by
  unfold insertNoGrow at h
  obtain ⟨⟨i, d⟩, _, h⟩ := res_bind_ok h
  obtain ⟨⟨t1, b⟩, h1, h⟩ := res_bind_ok h
  have h2 : Fr t t1 := place_fr h1
  simp only at h
  split at h
  · cases h
  · exact h2.trans (construct_fr h)

theorem transferAll_fr (old : Map K V) : ∀ (is : List Nat) (t : Map K V) {t' : Map K V},
    transferAll store chk E old is t = .ok t' → Fr t t' := by
  intro is
  induction is with
  | nil => intro t t' h; cases h; exact ⟨rfl, rfl, rfl, rfl⟩
  | cons i is ih =>
    intro t t' h
    unfold transferAll at h
    cases hs : old.slot i with
    | none => rw [hs] at h; cases h
    | some e =>
      rw [hs] at h
      obtain ⟨t1, h1, h⟩ := res_bind_ok h
      exact (insertNoGrow_fr h1).trans (ih t1 h)

/-- A rehash that returns leaves the map as it is or gives it the new capacity with the threshold that belongs to it. -/
theorem rehashImpl_fr {sh al mem : Bool} {n : Nat} {t t' : Map K V} {u : Unit}
    (h : rehashImpl store chk E sh al mem n t = .ok t' u) :
    ∃ cap, calcCapacity n = .ok cap ∧
      ((al = false ∧ t' = t ∧ (sh = false → cap ≤ slotCap t) ∧ (sh = true → cap = slotCap t)) ∨
        (t'.mask = cap - 1 ∧ t'.thr = cap * t.mlf / 256 ∧ t'.mlf = t.mlf ∧ t'.rev = t.rev)) := by
  unfold rehashImpl at h
  cases hc : calcCapacity n with
  | ub => rw [hc] at h; cases h
  | diverge => rw [hc] at h; cases h
  | ok cap =>
    rw [hc] at h
    simp only at h
    refine ⟨cap, rfl, ?_⟩
    split at h
    · right
      unfold createSlots at h
      simp only at h
      split at h
      · rename_i t1 _ heq
        split at heq
        · cases heq
          split at h
          · rename_i t2 ht2
            cases h
            have := transferAll_fr _ _ _ ht2
            exact ⟨this.mask, this.thr, this.mlf, this.rev⟩
          · cases h
          · cases h
        · cases heq
      · cases h
      · cases h
      · cases h
    · rename_i hn
      cases h
      left
      cases al with
      | true => simp at hn
      | false =>
        refine ⟨rfl, rfl, fun hs => ?_, fun hs => ?_⟩
        · subst hs; simpa using hn
        · subst hs; simpa using hn

theorem pow_even {j : Nat} (hj : 2 ≤ j) : 2 ^ j % 2 = 0 := by
  obtain ⟨i, rfl⟩ : ∃ i, j = i + 1 := ⟨j - 1, by omega⟩
  rw [Nat.pow_succ]; omega

/-- A growth at least doubles the capacity. -/
theorem grow_fr {mem : Bool} {t t' : Map K V} {u : Unit} (h : grow store chk E mem t = .ok t' u) :
    2 * (t.mask + 1) ≤ t'.mask + 1 ∧ t'.thr = (t'.mask + 1) * t.mlf / 256 ∧ t'.mlf = t.mlf ∧ t'.rev = t.rev ∧
      (t'.mask + 1) % 2 = 0 := by
  obtain ⟨cap, hc, h | ⟨h1, h2, h3, h4⟩⟩ := rehashImpl_fr h
  · exact absurd h.1 (by decide)
  · obtain ⟨j, hj, rfl, hn, _⟩ := calcCapacity_ok hc
    have := pow_two_le hj
    rw [h1, Nat.sub_add_cancel (by omega)]
    exact ⟨by omega, h2, h3, h4, pow_even hj⟩

theorem finish_fr {k : K} {t t' : Map K V} {i : Nat} {d : Ctrl} {r : Found} (h : finish store chk E k t i d = .ok t' r) :
    Fr t t' := by
  unfold finish at h
  obtain ⟨⟨t1, b⟩, h1, h⟩ := lift_ok h
  cases h
  exact place_fr h1

/-- Same capacity below the threshold, or grown. -/
def Grew (t t' : Map K V) : Prop :=
  2 * (t.mask + 1) ≤ t'.mask + 1 ∧ t'.thr = (t'.mask + 1) * t.mlf / 256 ∧ t'.mlf = t.mlf ∧ t'.rev = t.rev ∧
    (t'.mask + 1) % 2 = 0

theorem Grew.fr {t t1 t' : Map K V} (h : Grew t t1) (h' : Fr t1 t') : Grew t t' :=
  ⟨by rw [h'.mask]; exact h.1, by rw [h'.thr, h'.mask]; exact h.2.1, h'.mlf.trans h.2.2.1, h'.rev.trans h.2.2.2.1,
    by rw [h'.mask]; exact h.2.2.2.2⟩

theorem Grew.of_fr {t t1 t' : Map K V} (h : Fr t t1) (h' : Grew t1 t') : Grew t t' :=
  ⟨by rw [← h.mask]; exact h'.1, by rw [h'.2.1, h.mlf], h'.2.2.1.trans h.mlf, h'.2.2.2.1.trans h.rev, h'.2.2.2.2⟩

theorem Grew.trans {t t1 t' : Map K V} (h : Grew t t1) (h' : Grew t1 t') : Grew t t' :=
  ⟨by have := h.1; have := h'.1; omega, by rw [h'.2.1, h.2.2.1], h'.2.2.1.trans h.2.2.1, h'.2.2.2.1.trans h.2.2.2.1,
    h'.2.2.2.2⟩

theorem findOrInsert_fr {mem : Bool} {k : K} {t t' : Map K V} {r : Found} (h : findOrInsert store chk E mem k t = .ok t' r) :
    (t' = t ∧ ∃ i, r = .exists_ i) ∨ (Fr t t' ∧ (∀ i, r ≠ .exists_ i) ∧ t.size < t.thr ∧ t'.size = t.size) ∨
      (Grew t t' ∧ ∀ i, r ≠ .exists_ i) := by
  unfold findOrInsert at h
  obtain ⟨q, h1, h⟩ := lift_ok h
  have hfin : ∀ {t t' : Map K V} {i d r}, finish store chk E k t i d = .ok t' r → ∀ i, r ≠ .exists_ i := by
    intro t t' i d r h
    unfold finish at h
    obtain ⟨⟨t1, b⟩, h1, h⟩ := lift_ok h
    cases h
    intro i
    cases b <;> simp
  cases q with
  | hit i => cases h; exact Or.inl ⟨rfl, i, rfl⟩
  | stop i d =>
    simp only at h
    split at h
    · obtain ⟨t1, u, hg, h⟩ := out_bind_ok h
      obtain ⟨⟨i1, d1⟩, _, h⟩ := lift_ok h
      exact Or.inr (Or.inr ⟨Grew.fr (grow_fr hg) (finish_fr h), hfin h⟩)
    · rename_i hn
      simp only [Bool.or_eq_true, decide_eq_true_eq, not_or] at hn
      refine Or.inr (Or.inl ⟨finish_fr h, hfin h, by omega, ?_⟩)
      unfold finish at h
      obtain ⟨⟨t1, b⟩, h1, h⟩ := lift_ok h
      cases h
      exact place_size h1
where
  place_size {t : Map K V} {i : Nat} {d : Ctrl} {q : Map K V × Bool} (h : place store chk false t i d = .ok q) :
      q.1.size = t.size := by
    have hl : ∀ (f : Nat) (t : Map K V) (p0 i : Nat) (r : Ctrl) {q : Map K V × Bool},
        placeLoop store chk false p0 f t i r = .ok q → q.1.size = t.size := by
      have hng : ∀ {p0 : Nat} {t : Map K V} {r : Ctrl} {q : Map K V × Bool}, needGrow p0 t r = .ok q → q.1.size = t.size := by
        intro p0 t r q h
        unfold needGrow at h
        cases hs : t.slot p0 with
        | none => rw [hs] at h; cases h
        | some e => rw [hs] at h; cases h; rfl
      intro f
      induction f with
      | zero => intro t p0 i r q h; exact hng h
      | succ f ih =>
        intro t p0 i r q h
        unfold placeLoop at h
        split at h
        · cases hs : t.slot p0 with
          | none => rw [hs] at h; cases h
          | some e => rw [hs] at h; cases h; rfl
        · split at h
          · simp only at h
            split at h
            · have := hng h
              exact this
            · have := ih _ _ _ _ h
              exact this
          · split at h
            · cases h
            · split at h
              · exact hng h
              · exact ih _ _ _ _ h
    unfold place at h
    split at h
    · split at h
      · cases h; rfl
      · unfold insertToPlace at h
        cases hl' : t.last with
        | none => rw [hl'] at h; cases h
        | some n =>
          rw [hl'] at h
          have := hl _ _ _ _ _ h
          exact this
    · cases h

/-- An insertion: nothing but an element changes, or an element is added below the threshold, or the map has grown. -/
theorem emplaceLoop_fr (update mem : Bool) (k : K) (v : V) : ∀ (f : Nat) (t : Map K V) {t' : Map K V} {i : Nat} {b : Bool},
    emplaceLoop store chk E update mem k v f t = .ok t' (i, b) →
    (b = false ∧ Fr t t' ∧ t'.size = t.size) ∨ (b = true ∧ Fr t t' ∧ t.size < t.thr) ∨ Grew t t' := by
  intro f
  induction f with
  | zero => intro t t' i b h; cases h
  | succ f ih =>
    intro t t' i b h
    unfold emplaceLoop at h
    obtain ⟨t1, r, h1, hy⟩ := out_bind_ok h
    clear h
    rename' hy => h
    cases r with
    | notExists i1 =>
      obtain ⟨t2, h2, h⟩ := lift_ok h
      cases h
      have h3 := construct_fr h2
      rcases findOrInsert_fr h1 with ⟨_, i, hi⟩ | ⟨h4, _, h5, _⟩ | ⟨h4, _⟩
      · cases hi
      · exact Or.inr (Or.inl ⟨rfl, h4.trans h3, h5⟩)
      · exact Or.inr (Or.inr (h4.fr h3))
    | exists_ i1 =>
      simp only at h
      cases hs : t1.slot i1 with
      | none => rw [hs] at h; cases h
      | some e =>
        rw [hs] at h
        rcases findOrInsert_fr h1 with ⟨h5, _⟩ | ⟨_, h5, _⟩ | ⟨_, h5⟩
        · left
          subst h5
          cases update <;> cases h <;> exact ⟨rfl, ⟨rfl, rfl, rfl, rfl⟩, rfl⟩
        · exact absurd rfl (h5 i1)
        · exact absurd rfl (h5 i1)
    | needGrow =>
      simp only at h
      obtain ⟨t2, u, h2, h⟩ := out_bind_ok h
      right; right
      have h3 : Grew t t2 := by
        rcases findOrInsert_fr h1 with ⟨_, i, hi⟩ | ⟨h4, _⟩ | ⟨h4, _⟩
        · cases hi
        · exact Grew.of_fr h4 (grow_fr h2)
        · exact h4.trans (grow_fr h2)
      rcases ih t2 h with ⟨_, h4, _⟩ | ⟨_, h4, _⟩ | h4
      · exact h3.fr h4
      · exact h3.fr h4
      · exact h3.trans h4

theorem shiftLoop_fr : ∀ (f i : Nat) (t : Map K V) {t' : Map K V}, shiftLoop f i t = .ok t' → Fr t t' := by
  intro f
  induction f with
  | zero => intro i t t' h; cases h
  | succ f ih =>
    intro i t t' h
    unfold shiftLoop at h
    split at h
    · cases h; exact ⟨rfl, rfl, rfl, rfl⟩
    · cases hs : t.slot (i + 1) with
      | none => rw [hs] at h; cases h
      | some e =>
        rw [hs] at h
        have := ih _ _ h
        exact ⟨this.mask, this.thr, this.mlf, this.rev⟩

theorem eraseKey_fr {k : K} {t t' : Map K V} {n : Nat} (h : eraseKey store chk E k t = .ok t' n) : Fr t t' := by
  unfold eraseKey at h
  obtain ⟨r, _, h⟩ := lift_ok h
  cases r with
  | none => cases h; exact ⟨rfl, rfl, rfl, rfl⟩
  | some i =>
    simp only at h
    split at h
    · cases h; exact ⟨rfl, rfl, rfl, rfl⟩
    · obtain ⟨t1, h1, h⟩ := lift_ok h
      cases h
      unfold eraseSlot at h1
      obtain ⟨t2, h2, h1⟩ := res_bind_ok h1
      cases h1
      have := shiftLoop_fr _ _ _ h2
      exact ⟨this.mask, this.thr, this.mlf, this.rev⟩

/-! ### The load -/

/-- The calls that keep the default load factor and ask for at least as much as there is. -/
def Tame (m : Spec.Map K V) : Call K V → Prop
  | .maxLoad _ => False
  | .shrink ro => ro = false
  | .reserve n => m.length ≤ n ∧ n ≤ 2 ^ 48
  | .rehash n => m.length ≤ n ∧ n ≤ 2 ^ 48
  | _ => True

/-- Every call of the history is tame. -/
def TameAll (E : Env K) : Spec.Map K V → List (Bool × Call K V) → Prop
  | _, [] => True
  | m, (_, c) :: cs => Tame m c ∧ TameAll E (next E.eq m c) cs

/-- At most half full, with the threshold at one half. -/
structure Half (t : Map K V) : Prop where
  mlf : t.mlf = 128
  rev : t.rev = 512
  thr : t.mask = 0 ∧ t.thr = 0 ∨ 2 * t.thr = t.mask + 1
  load : 2 * t.size ≤ t.mask + 1

theorem half_default (a b : Nat) (ha : a = 128) (hb : b = 512) : Half (emptyMap false a b : Map K V) :=
  ⟨ha, hb, Or.inl ⟨rfl, rfl⟩, by show 2 * 0 ≤ 0 + 1; omega⟩

theorem Grew.half {t t' : Map K V} (h : Half t) (hg : Grew t t') (hs : t'.size ≤ t.size + 1) : Half t' := by
  obtain ⟨h1, h2, h3, h4, h5⟩ := hg
  rw [h.mlf] at h2
  have := h.load
  exact ⟨h3.trans h.mlf, h4.trans h.rev, by omega, by omega⟩

theorem rehash_half {t t' : Map K V} {u : Unit} (h : Half t) {n : Nat} {mem : Bool}
    (hx : rehashImpl false chk E true false mem n t = .ok t' u) (hs : t'.size = t.size) (hn : 2 * t.size ≤ n) : Half t' := by
  obtain ⟨cap, hc, ⟨_, rfl, _⟩ | ⟨h1, h2, h3, h4⟩⟩ := rehashImpl_fr hx
  · exact h
  · obtain ⟨j, hj, rfl, h5, _⟩ := calcCapacity_ok hc
    have := pow_two_le hj
    have := pow_even hj
    rw [h.mlf] at h2
    exact ⟨h3.trans h.mlf, h4.trans h.rev, by omega, by omega⟩

theorem half_minRequire {t : Map K V} (h : Half t) {n : Nat} (hn : n ≤ 2 ^ 48) : minRequire t n = 2 * n := by
  unfold minRequire
  rw [h.rev, Nat.mod_eq_of_lt (by unfold W; omega)]
  omega

/-- Tame calls keep the map at most half full. -/
theorem exec_half (hE : E.Lawful) {t : Map K V} (hR : Reach E t) {m : Spec.Map K V} (hm : (entries t).Perm m) (hh : Half t)
    {rv : Nat → Nat} (hrv : ∀ x, 256 ≤ rv x ∧ rv x ≤ 1024) {mem : Bool} {c : Call K V} (hv : Valid c) (ht : Tame m c)
    {t' : Map K V} {a : Ans K V} (hx : exec false true E rv mem c t = .ok t' a) : Half t' := by
  have hs := exec_ok hE hR hm hrv mem hv
  rw [hx] at hs
  obtain ⟨hR', _, hm'⟩ := hs
  have hsz : t.size = m.length := by rw [hR.size, hm.length_eq]
  have hsz' : t'.size = (next E.eq m c).length := by rw [hR'.size, hm'.length_eq]
  have hput : ∀ (update : Bool) (k : K) (v : V) (i : Nat) (b : Bool), emplace false true E update mem k v t = .ok t' (i, b) →
      Half t' := by
    intro update k v i b he
    have h1 := emplace_ok hE hR hm update mem k v
    rw [he] at h1
    have hle : t'.size ≤ t.size + 1 := by
      obtain ⟨g1, _, e, _, _, g5⟩ := h1
      rw [g1.size, g5.length_eq, hsz]
      unfold after
      split
      · unfold Spec.assign
        split
        · simp
        · simp
      · unfold Spec.insert
        split <;> simp
    rcases emplaceLoop_fr update mem k v _ t he with ⟨_, h2, h3⟩ | ⟨_, h2, h3⟩ | h2
    · exact ⟨h2.mlf.trans hh.mlf, h2.rev.trans hh.rev, by rw [h2.thr, h2.mask]; exact hh.thr, by rw [h3, h2.mask]; exact hh.load⟩
    · have := hh.thr
      exact ⟨h2.mlf.trans hh.mlf, h2.rev.trans hh.rev, by rw [h2.thr, h2.mask]; exact hh.thr, by rw [h2.mask]; omega⟩
    · exact h2.half hh hle
  have hlift : ∀ {α : Type} {r : Res α} {f : α → Ans K V}, lift r (fun x => Out.ok t (f x)) = .ok t' a → Half t' := by
    intro α r f h
    obtain ⟨x, _, h⟩ := lift_ok h
    cases h; exact hh
  have hsize48 := hR.size_le
  cases c with
  | insert k v =>
    obtain ⟨s, ⟨i, b⟩, h1, h2⟩ := out_bind_ok hx
    have : s = t' := by
      unfold readElem at h2
      cases hq : s.slot i with
      | none => simp only [hq] at h2; cases h2
      | some e => simp only [hq] at h2; cases h2; rfl
    subst this
    exact hput _ _ _ _ _ h1
  | assign k v =>
    obtain ⟨s, ⟨i, b⟩, h1, h2⟩ := out_bind_ok hx
    have : s = t' := by
      unfold readElem at h2
      cases hq : s.slot i with
      | none => simp only [hq] at h2; cases h2
      | some e => simp only [hq] at h2; cases h2; rfl
    subst this
    exact hput _ _ _ _ _ h1
  | index k v =>
    obtain ⟨s, ⟨i, b⟩, h1, h2⟩ := out_bind_ok hx
    have : s = t' := by
      unfold readValue at h2
      cases hq : s.slot i with
      | none => simp only [hq] at h2; cases h2
      | some e => simp only [hq] at h2; cases h2; rfl
    subst this
    exact hput _ _ _ _ _ h1
  | find k => exact hlift hx
  | contains k => exact hlift hx
  | count k => exact hlift hx
  | «at» k => exact hlift hx
  | iterate => exact hlift hx
  | size => cases hx; exact hh
  | empty => cases hx; exact hh
  | erase k =>
    obtain ⟨s, n, h1, h2⟩ := out_bind_ok hx
    cases h2
    have h3 := eraseKey_fr h1
    refine ⟨h3.mlf.trans hh.mlf, h3.rev.trans hh.rev, by rw [h3.thr, h3.mask]; exact hh.thr, ?_⟩
    have h4 : (Spec.erase E.eq m k).length ≤ m.length := List.length_filter_le _ _
    have h5 : t'.size = (Spec.erase E.eq m k).length := hsz'
    have := hh.load
    rw [h3.mask]; omega
  | clear d =>
    obtain ⟨s, u, h1, h2⟩ := out_bind_ok hx
    cases h2
    unfold clear at h1
    split at h1
    · cases h1
      exact half_default _ _ hh.mlf hh.rev
    · unfold clearData at h1
      split at h1
      · cases h1
        exact ⟨hh.mlf, hh.rev, hh.thr, Nat.zero_le _⟩
      · cases h1
  | reserve n =>
    obtain ⟨s, u, h1, h2⟩ := out_bind_ok hx
    cases h2
    unfold rehash at h1
    have h5 : t'.size = m.length := hsz'
    refine rehash_half hh h1 (by omega) ?_
    rw [if_neg (by decide), half_minRequire hh ht.2]
    have := ht.1
    omega
  | rehash n =>
    obtain ⟨s, u, h1, h2⟩ := out_bind_ok hx
    cases h2
    unfold rehash at h1
    have h5 : t'.size = m.length := hsz'
    refine rehash_half hh h1 (by omega) ?_
    rw [if_neg (by decide), half_minRequire hh ht.2]
    have := ht.1
    omega
  | shrink ro =>
    obtain ⟨s, u, h1, h2⟩ := out_bind_ok hx
    cases h2
    unfold shrinkToFit at h1
    have h5 : t'.size = m.length := hsz'
    refine rehash_half hh h1 (by omega) ?_
    rw [show ro = false from ht, if_neg (by decide), half_minRequire hh hsize48]
  | maxLoad x => exact ht.elim

theorem run_half (hE : E.Lawful) {rv : Nat → Nat} (hrv : ∀ x, 256 ≤ rv x ∧ rv x ≤ 1024) :
    ∀ (cs : List (Bool × Call K V)) (t : Map K V) (m : Spec.Map K V), (∀ c ∈ cs, Valid c.2) → Reach E t → (entries t).Perm m →
      Half t → TameAll E m cs → ∀ {as t'}, run false true E rv cs t = .ok (as, t') → as.getLast? ≠ some .threw → Half t' := by
  intro cs
  induction cs with
  | nil => intro t m _ _ _ hh _ as t' h _; cases h; exact hh
  | cons c cs ih =>
    intro t m hv hR hm hh ht as t' h hl
    obtain ⟨mem, c⟩ := c
    have hs := exec_ok hE hR hm hrv mem (hv _ (List.mem_cons_self ..))
    unfold run at h
    cases hx : exec false true E rv mem c t with
    | ub => rw [hx] at h; cases h
    | diverge => rw [hx] at h; cases h
    | throw s => rw [hx] at h; cases h; exact absurd rfl hl
    | ok s a =>
      rw [hx] at h hs
      obtain ⟨⟨as1, t1⟩, h1, h2⟩ := res_bind_ok h
      cases h2
      have hne : a ≠ .threw := fun ha => exec_not_threw (ha ▸ hx)
      refine ih s _ (fun c' hc' => hv c' (List.mem_cons_of_mem _ hc')) hs.1 hs.2.2
        (exec_half hE hR hm hh hrv (hv _ (List.mem_cons_self ..)) ht.1 hx) ht.2 h1 fun hl2 => hl ?_
      show (a :: as1).getLast? = _
      rw [List.getLast?_cons, hl2]
      rfl

theorem make_half {mem : Bool} {n : Nat} {t : Map K V} (h : (make false mem n : Out (Map K V) Unit) = .ok t ()) : Half t := by
  unfold make at h
  by_cases hn : n = 0
  · rw [if_pos hn] at h
    cases h
    exact half_default _ _ rfl rfl
  · rw [if_neg hn] at h
    cases hc : calcCapacity n with
    | ub => rw [hc] at h; cases h
    | diverge => rw [hc] at h; cases h
    | ok cap =>
      rw [hc] at h
      obtain ⟨j, hj, rfl, _⟩ := calcCapacity_ok hc
      have h4 := pow_two_le hj
      have h5 := pow_even hj
      simp only [createSlots] at h
      split at h
      · cases h
        refine ⟨rfl, rfl, Or.inr ?_, Nat.zero_le _⟩
        show 2 * (2 ^ j * 128 / 256) = 2 ^ j - 1 + 1
        omega
      · cases h

theorem Reached.half (hE : E.Lawful) {rv : Nat → Nat} (hrv : ∀ x, 256 ≤ rv x ∧ rv x ≤ 1024) {cs : List (Bool × Call K V)}
    {t : Map K V} (h : Reached E rv cs t) (ht : TameAll E [] cs) : Half t := by
  obtain ⟨hv, n, mem, t0, as, h0, h1, h2⟩ := h
  obtain ⟨hR, he, _⟩ := reach_make (E := E) h0
  exact run_half hE hrv cs t0 [] hv hR (by rw [he]) (make_half h0) ht h1 h2

/-- C109 (partial). After every history of calls that do not change `max_load_factor()` and whose `reserve` and `rehash` ask for at
least `size()`, `load_factor()` is at most one half.  Missing, because the code violates it: smaller arguments
(`C109_rehash_exceeds_load`), `shrink_to_fit(true)` (`C109_shrink_exceeds_load`) and `max_load_factor(x)`
(`C109_max_load_factor_no_effect`). -/
theorem C109_load_partial (hE : E.Lawful) {rv : Nat → Nat} (hrv : ∀ x, 256 ≤ rv x ∧ rv x ≤ 1024) {cs : List (Bool × Call K V)}
    {t : Map K V} (h : Reached E rv cs t) (ht : TameAll E [] cs) : 2 * t.size ≤ slotCap t := by
  have hh := h.half hE hrv ht
  obtain ⟨hR, _⟩ := h.reach hE hrv
  rcases hR.st with ⟨a, b, rfl⟩ | ⟨c, hl⟩
  · exact Nat.le_refl _
  · have h4 := hl.toShape.c_ge
    have := hl.mask
    have := hh.load
    rw [hl.toShape.slotCap]; omega

/-- Growth followed by the insertion of an absent key that fits: the capacity afterwards. -/
theorem grow_exact (hE : E.Lawful) {t t' t1 : Map K V} {j : Nat} (h : Weak E t (2 ^ j) ∨ Fresh t ∧ j = 1) (hj : 1 ≤ j) {k : K}
    {v : V} (hk : ∀ x ∈ entries t, E.eq x.1 k = false) (hf : Fits E (2 ^ (j + 1)) ((k, v) :: entries t)) {update mem : Bool}
    {f i : Nat} {b : Bool} {r : Found}
    (hq : ((grow false true E mem t).bind fun t' _ => lift (seek false true E t' k) fun x => finish false true E k t' x.1 x.2) =
      .ok t1 r)
    (hx : emplaceTail E update mem k v f t1 r = .ok t' (i, b)) : slotCap t' = 2 ^ (j + 1) := by
  obtain ⟨t2, u, hg, hq⟩ := out_bind_ok hq
  have hgs := grow_spec hE h hj mem
  rw [hg] at hgs
  obtain ⟨_, hmv⟩ := hgs
  obtain ⟨⟨i1, d1⟩, hsk, hq⟩ := lift_ok hq
  have hs2 := seek_spec hmv.good k
  rw [hsk] at hs2
  have hk1 : ∀ x ∈ entries t2, E.eq x.1 k = false := fun x hx => hk x (hmv.perm.mem_iff.mp hx)
  have hfs := finish_spec hE hmv.good hs2 hk1 update mem v f
  have hst := (hf.perm (List.Perm.cons (k, v) hmv.perm.symm)).not_stuck hmv.good
  simp only at hq
  rw [hq, Out.bind_ok, hx] at hfs
  generalize hR : (Out.ok t' (i, b) : Out (Map K V) (Nat × Bool)) = R at hfs
  cases hfs with
  | added i' t'' ha => cases hR; exact ha.good.toShape.slotCap
  | ub hst' => cases hR
  | grow t3 _ _ _ hst' => exact (hst hst').elim

/-- Insertion of a new key where everything fits: the capacity afterwards. -/
theorem emplace_exact (hE : E.Lawful) {t t' : Map K V} {j : Nat} (h : Live E t (2 ^ j)) {k : K} {v : V}
    (hk : ∀ x ∈ entries t, E.eq x.1 k = false) (hf : t.size < t.thr → Fits E (2 ^ j) ((k, v) :: entries t))
    (hf2 : Fits E (2 ^ (j + 1)) ((k, v) :: entries t)) {update mem : Bool} {f i : Nat} {b : Bool}
    (hx : emplaceLoop false true E update mem k v (f + 1) t = .ok t' (i, b)) :
    slotCap t' = if t.size < t.thr then 2 ^ j else 2 ^ (j + 1) := by
  have hj : 1 ≤ j := by
    obtain ⟨i, h1, _, h2⟩ := h.pow
    rw [Nat.pow_right_injective (Nat.le_refl 2) h2]; omega
  rw [emplaceLoop_succ] at hx
  unfold findOrInsert at hx
  have hp := probe_spec h.toGood k
  cases hpr : probe false true E t k with
  | diverge => rw [hpr] at hp; exact hp.elim
  | ub => rw [hpr] at hx; cases hx
  | ok q =>
    rw [hpr] at hp hx
    simp only [lift] at hx
    cases q with
    | hit i0 =>
      obtain ⟨hi, e, he, heq⟩ := hp
      rw [hk e (mem_entries.mpr ⟨i0, hi, he⟩)] at heq
      cases heq
    | stop i0 d =>
      obtain ⟨hs, hps⟩ := hp
      simp only [h.toShape.no_max, Bool.or_false, decide_eq_true_eq] at hx
      by_cases hthr : t.thr ≤ t.size
      · rw [if_pos hthr] at hx
        rw [if_neg (by omega)]
        obtain ⟨t1, r1, hq, hx⟩ := out_bind_ok hx
        exact grow_exact hE (Or.inl h.toGood.weak) hj hk hf2 hq hx
      · rw [if_neg hthr] at hx
        rw [if_pos (by omega)]
        have hfs := finish_spec hE h.toGood hs hk update mem v f
        have hst := (hf (by omega)).not_stuck h.toGood
        rw [hx] at hfs
        generalize hR : (Out.ok t' (i, b) : Out (Map K V) (Nat × Bool)) = R at hfs
        cases hfs with
        | added i' t'' ha => cases hR; exact ha.good.toShape.slotCap
        | ub hst' => cases hR
        | grow t3 _ _ _ hst' => exact (hst hst').elim

theorem emplace_exact_fresh (hE : E.Lawful) {t t' : Map K V} (h : Fresh t) {k : K} {v : V} (hf : Fits E 4 [(k, v)])
    {update mem : Bool} {f i : Nat} {b : Bool} (hx : emplaceLoop false true E update mem k v (f + 1) t = .ok t' (i, b)) :
    slotCap t' = 4 := by
  rw [emplaceLoop_succ] at hx
  unfold findOrInsert at hx
  have he := h.entries
  have h2 := h
  obtain ⟨m, r, rfl⟩ := h2
  rw [probe_fresh] at hx
  obtain ⟨t1, r1, hq, hx⟩ := out_bind_ok hx
  exact grow_exact hE (Or.inr ⟨h, rfl⟩) (Nat.le_refl _) (by rw [he]; intro x hx; cases hx) (by rw [he]; exact hf) hq hx

/-- C109 (partial, as above). After such a history, inserting a new key keeps the capacity if the map is less than half full and doubles
it otherwise (an element must find its place, `Roomy`, C33); the first capacity is 4. -/
theorem C109_growth_partial (hE : E.Lawful) {rv : Nat → Nat} (hrv : ∀ x, 256 ≤ rv x ∧ rv x ≤ 1024) {cs : List (Bool × Call K V)}
    {t : Map K V} (h : Reached E rv cs t) (ht : TameAll E [] cs) {k : K} {v : V}
    (hk : Spec.get E.eq (contents E.eq cs) k = none) (hroom : Roomy E (contents E.eq cs))
    (hfit : Roomy E ((k, v) :: contents E.eq cs)) {update mem : Bool} {t' : Map K V} {r : Nat × Bool}
    (hx : emplace false false E update mem k v t = .ok t' r) :
    slotCap t' = if slotCap t = 0 then 4 else if 2 * t.size < slotCap t then slotCap t else 2 * slotCap t := by
  have hh := h.half hE hrv ht
  obtain ⟨hR, hm⟩ := h.reach hE hrv
  have hk' : ∀ x ∈ entries t, E.eq x.1 k = false := fun x hx =>
    absent_symm hE (Spec.get_none_iff.mp hk x (hm.mem_iff.mp hx))
  have haft : after E.eq update (contents E.eq cs) k v = (k, v) :: contents E.eq cs := by
    unfold after
    cases update
    · exact Spec.insert_absent hk v
    · simp [Spec.assign, hk]
  have hfit' : Roomy E ((k, v) :: entries t) := hfit.perm (List.Perm.cons _ hm.symm)
  have hx1 : emplaceLoop false true E update mem k v 64 t = .ok t' r := by
    have h1 := emplace_ok hE hR hm update mem k v
    unfold emplace at hx h1
    rcases emplaceLoop_chk (E := E) (store := false) update mem k v 64 t with h2 | h2
    · rw [h2] at h1
      rcases h1 with h1 | h1
      · exact (h1 hroom).elim
      · rw [haft] at h1; exact (h1 hfit).elim
    · rw [h2, hx]
  clear hx
  obtain ⟨i, b⟩ := r
  generalize hF : (64 : Nat) = F at hx1
  obtain ⟨f, rfl⟩ : ∃ f, F = f + 1 := ⟨F - 1, by omega⟩
  rcases hR.st with hfr | ⟨c, hl⟩
  · have hc : slotCap t = 0 := by obtain ⟨m, r, rfl⟩ := hfr; rfl
    rw [if_pos hc]
    refine emplace_exact_fresh hE hfr (v := v) ?_ hx1
    have := hfit' 2 (Nat.le_refl _) (by rw [hfr.entries]; show 1 ≤ 2 ^ 2; omega)
    rw [hfr.entries] at this
    exact this
  · obtain ⟨j, hj, _, rfl⟩ := hl.pow
    have h4 := pow_two_le hj
    have hmk := hl.mask
    have hsz := hl.size
    have h5 := hh.load
    have h6 := hh.thr
    rw [hl.toShape.slotCap, if_neg (by omega)]
    have h7 := emplace_exact hE hl hk' (v := v)
      (fun _ => hfit' j hj (by rw [List.length_cons]; omega))
      (hfit' (j + 1) (by omega) (by rw [List.length_cons, Nat.pow_succ]; omega)) hx1
    rw [h7, Nat.pow_succ, Nat.mul_comm 2 (2 ^ j)]
    by_cases h8 : t.size < t.thr
    · rw [if_pos h8, if_pos (by omega)]
    · rw [if_neg h8, if_neg (by omega)]

/-! ### Deviations -/

/-- Deviation from C109: `max_load_factor(x)` has no effect on when the map grows.  After every history as above, for every `x`: the
call allocates nothing and succeeds, the capacity stays, and the next new key still makes the map grow exactly when it is half full. -/
theorem C109_max_load_factor_no_effect (hE : E.Lawful) {rv : Nat → Nat} (hrv : ∀ x, 256 ≤ rv x ∧ rv x ≤ 1024)
    {cs : List (Bool × Call K V)} {t : Map K V} (h : Reached E rv cs t) (ht : TameAll E [] cs) (mem chk : Bool) (m r : Nat) :
    ∃ t1, setMlf false chk E mem m r t = .ok t1 () ∧ t1.mlf = m ∧ slotCap t1 = slotCap t ∧
      ∀ {k v}, 0 < slotCap t → (∀ x ∈ entries t, E.eq x.1 k = false) → Roomy E ((k, v) :: entries t) →
        ∀ {update mem' t' i b}, emplaceLoop false true E update mem' k v 64 t1 = .ok t' (i, b) →
          slotCap t' = if 2 * t.size < slotCap t then slotCap t else 2 * slotCap t := by
  have hh := h.half hE hrv ht
  obtain ⟨hR, hm⟩ := h.reach hE hrv
  have hle : ¬ t.size > t.thr := by
    have h1 := hh.load
    have h2 := hh.thr
    omega
  refine ⟨{ t with mlf := m, rev := r }, ?_, rfl, rfl, ?_⟩
  · unfold setMlf
    simp only [hle, decide_false, Bool.false_and, Bool.false_eq_true, if_false]
  · intro k v hc hk hfit update mem' t' i b hx
    generalize hF : (64 : Nat) = F at hx
    obtain ⟨f, rfl⟩ : ∃ f, F = f + 1 := ⟨F - 1, by omega⟩
    rcases hR.st with ⟨a, b, rfl⟩ | ⟨c, hl⟩
    · cases hc
    · have hl' : Live E { t with mlf := m, rev := r } c :=
        ⟨⟨⟨hl.alloc, hl.pow, hl.mask, hl.look, hl.slen, hl.last, hl.clen⟩, hl.cell, hl.tail, hl.order, hl.distinct, hl.size⟩, hl.thr_le,
          hl.size_le⟩
      obtain ⟨j, hj, _, rfl⟩ := hl.pow
      have h4 := pow_two_le hj
      have hmk := hl.mask
      have hsz := hl.size
      have h5 := hh.load
      have h6 := hh.thr
      have h7 := emplace_exact hE hl' hk (v := v) (fun _ => hfit j hj (by rw [List.length_cons]; omega))
        (hfit (j + 1) (by omega) (by rw [List.length_cons, Nat.pow_succ]; omega)) hx
      rw [hl.toShape.slotCap, h7, Nat.pow_succ, Nat.mul_comm 2 (2 ^ j)]
      show (if t.size < t.thr then _ else _) = _
      by_cases h8 : t.size < t.thr
      · rw [if_pos h8, if_pos (by omega)]
      · rw [if_neg h8, if_neg (by omega)]

/-- The map a history ends in. -/
theorem load_of {E : Env Nat} {n : Nat} {cs : List (Call Nat Nat)} {c s x : Nat} (hv : cs.all validB = true)
    (h : ((stateOf E n cs).map fun t => (slotCap t, t.size, t.mlf)) = some (c, s, x)) :
    ∃ t, Reached E (fun _ => 512) (cs.map fun c => (true, c)) t ∧ slotCap t = c ∧ t.size = s ∧ t.mlf = x := by
  cases ht : stateOf E n cs with
  | none => rw [ht] at h; cases h
  | some t => rw [ht] at h; cases h; exact ⟨t, reached_of ht hv, rfl, rfl, rfl⟩

/-- Deviation from C109: `rehash(0)` of a half full map packs four elements into four positions: `load_factor()` is 1 while
`max_load_factor()` is one half. -/
theorem C109_rehash_exceeds_load : ∃ t, Reached idEnv (fun _ => 512) ((ins 4 ++ [Call.rehash 0]).map fun c => (true, c)) t ∧
    slotCap t = 4 ∧ t.size = 4 ∧ t.mlf = 128 :=
  load_of (n := 0) (by decide) (by decide +kernel)

/-- Deviation from C109: the same for `shrink_to_fit(true)`. -/
theorem C109_shrink_exceeds_load : ∃ t, Reached idEnv (fun _ => 512) ((ins 4 ++ [Call.shrink true]).map fun c => (true, c)) t ∧
    slotCap t = 4 ∧ t.size = 4 ∧ t.mlf = 128 :=
  load_of (n := 0) (by decide) (by decide +kernel)

/-- Deviation from C109: with `max_load_factor()` lowered to 0.3 a map of eight positions takes a fourth element. -/
theorem C109_max_load_factor_exceeded :
    ∃ t, Reached idEnv (fun _ => 512) ((ins 3 ++ [Call.maxLoad 77, Call.insert 3 3]).map fun c => (true, c)) t ∧
      slotCap t = 8 ∧ t.size = 4 ∧ t.mlf = 77 :=
  load_of (n := 0) (by decide) (by decide +kernel)

/-- The histories of C109 with the conditions on `reserve`, `rehash`, `shrink_to_fit` and `max_load_factor` as a test. -/
def tameB (eq : Nat → Nat → Bool) : Spec.Map Nat Nat → List (Call Nat Nat) → Bool
  | _, [] => true
  | m, c :: cs => (match c with
    | .maxLoad _ => false
    | .shrink ro => !ro
    | .reserve n => decide (m.length ≤ n ∧ n ≤ 2 ^ 48)
    | .rehash n => decide (m.length ≤ n ∧ n ≤ 2 ^ 48)
    | _ => true) && tameB eq (next eq m c) cs

theorem tame_of_tameB {E : Env Nat} : ∀ (cs : List (Call Nat Nat)) (m : Spec.Map Nat Nat), tameB E.eq m cs = true →
    TameAll E m (cs.map fun c => (true, c)) := by
  intro cs
  induction cs with
  | nil => intro m _; trivial
  | cons c cs ih =>
    intro m h
    unfold tameB at h
    rw [Bool.and_eq_true] at h
    refine ⟨?_, ih _ h.2⟩
    have h1 := h.1
    cases c <;> simp_all [Tame]

/-- A history with growth, erasure, `reserve`, `shrink_to_fit` and `clear` for C109. -/
def loadHist : List (Call Nat Nat) := ins 9 ++ [.erase 3, .reserve 20, .shrink false, .clear false] ++ ins 4

example : ∃ t, Reached idEnv (fun _ => 512) (loadHist.map fun c => (true, c)) t ∧ TameAll idEnv [] (loadHist.map fun c => (true, c)) ∧
    slotCap t = 16 ∧ t.size = 4 := by
  obtain ⟨t, h1, h2, h3, _⟩ := load_of (E := idEnv) (n := 0) (cs := loadHist) (c := 16) (s := 4) (x := 128) (by decide)
    (by decide +kernel)
  exact ⟨t, h1, tame_of_tameB _ _ (by decide +kernel), h2, h3⟩

/-- The fifth key makes a map of eight positions grow (C109_growth_partial). -/
example : ∃ t t' r, Reached idEnv (fun _ => 512) ((ins 4).map fun c => (true, c)) t ∧
    TameAll idEnv [] ((ins 4).map fun c => (true, c)) ∧ Roomy idEnv (contents idEnv.eq ((ins 4).map fun c => (true, c))) ∧
    Roomy idEnv ((4, 4) :: contents idEnv.eq ((ins 4).map fun c => (true, c))) ∧
    Spec.get idEnv.eq (contents idEnv.eq ((ins 4).map fun c => (true, c))) 4 = none ∧ slotCap t = 8 ∧
    emplace false false idEnv false true 4 4 t = .ok t' r ∧ slotCap t' = 16 := by
  have h : ((stateOf idEnv 0 (ins 4)).map fun t => (slotCap t, match emplace false false idEnv false true 4 4 t with
    | .ok t' _ => slotCap t'
    | _ => 0)) = some (8, 16) := by decide +kernel
  cases ht : stateOf idEnv 0 (ins 4) with
  | none => rw [ht] at h; cases h
  | some t =>
    rw [ht] at h
    simp only [Option.map_some, Option.some.injEq, Prod.mk.injEq] at h
    cases hx : emplace false false idEnv false true 4 4 t with
    | ub => rw [hx] at h; cases h.2
    | diverge => rw [hx] at h; cases h.2
    | throw s => rw [hx] at h; cases h.2
    | ok t' r =>
      rw [hx] at h
      exact ⟨t, t', r, reached_of ht (by decide), tame_of_tameB _ _ (by decide), roomy_five (by decide), roomy_five (by decide),
        by decide, h.1, hx ▸ rfl, h.2⟩

end Verif.Robin
