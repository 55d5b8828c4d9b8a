/-
C126, theorems: the lifetimes of the elements and blocks of a `robin16_hash_map` are in order.  The model is in
`Verif.Rob16Track`.

R16 = src/jstd/hashmap/robin16_hash_map.h.
-/
import Verif.Rob16Track

namespace Verif.Rob16.Track
open Verif
open Verif.Spec (Call Ans Distinct)
open Verif.Life (Ev Heap step_ctor step_free step_alloc)

variable {K V : Type} {md : Mode} {E : Env K} {sec : Nat → Nat}

/-! ### The log and the heap -/

/-- The log is in order; after it the heap holds the two blocks of the map, and the objects alive are the elements of the map. -/
structure Led (s : LT K V) (h : Heap) : Prop where
  run : Heap.run s.log Heap.empty = some h
  blocks : h.blocks = [(s.blk, cap s.t), (s.gblk, s.t.gmask + 2)]
  holds : Holds h (Mine s.t s.blk)
  blk_lt : s.blk < s.next
  gblk_lt : s.gblk < s.next
  ne : s.blk ≠ s.gblk

/-- The log of `s` is in order. -/
def Fine (s : LT K V) : Prop := ∃ h, Led s h

/-- The outcome with the log is that of the plain model, and the log is in order. -/
def Agree {α : Type} : Out (LT K V) α → Out (Map K V) α → Prop
  | .ok s a, .ok t b => s.t = t ∧ a = b ∧ Fine s
  | .throw s, .throw t => s.t = t ∧ Fine s
  | .diverge, .diverge => True
  | .ub, .ub => True
  | _, _ => False

theorem Agree.bind {α β : Type} {o : Out (LT K V) α} {o' : Out (Map K V) α} (h : Agree o o') {f : LT K V → α → Out (LT K V) β}
    {g : Map K V → α → Out (Map K V) β} (hf : ∀ s a, Fine s → o' = .ok s.t a → Agree (f s a) (g s.t a)) :
    Agree (o.bind f) (o'.bind g) := by
  match o, o', h with
  | .ok s a, .ok t b, ⟨h1, h2, h3⟩ => subst h1; subst h2; exact hf s a h3 rfl
  | .throw s, .throw t, h => exact h
  | .diverge, .diverge, _ => trivial
  | .ub, .ub, _ => trivial

theorem Agree.lift {α β : Type} {r : Res α} {f : α → Out (LT K V) β} {g : α → Out (Map K V) β} (h : ∀ a, r = .ok a → Agree (f a) (g a)) :
    Agree (liftE r f) (Rob16.lift r g) := by
  cases r with
  | ok a => exact h a rfl
  | diverge => trivial
  | ub => trivial

theorem Led.congr {s : LT K V} {h : Heap} (hl : Led s h) {t' : Map K V} (h1 : t'.mask = s.t.mask) (h2 : t'.gmask = s.t.gmask)
    (h3 : ∀ i, i < cap s.t → ((t'.ctrl i).dist = 255 ↔ (s.t.ctrl i).dist = 255)) : Led { s with t := t' } h := by
  have hc : cap t' = cap s.t := by unfold cap; rw [h1]
  refine ⟨hl.run, ?_, hl.holds.congr fun b i => ?_, hl.blk_lt, hl.gblk_lt, hl.ne⟩
  · rw [hl.blocks]
    show _ = [(s.blk, cap t'), (s.gblk, t'.gmask + 2)]
    rw [hc, h2]
  · show Mine s.t s.blk b i ↔ Mine t' s.blk b i
    unfold Mine
    rw [hc]
    constructor
    · rintro ⟨x1, x2, x3⟩; exact ⟨x1, x2, fun hq => x3 ((h3 i x2).mp hq)⟩
    · rintro ⟨x1, x2, x3⟩; exact ⟨x1, x2, fun hq => x3 ((h3 i x2).mpr hq)⟩

/-- The two numbers of the map are smaller than the next one. -/
theorem Led.fresh {s : LT K V} {h : Heap} (hl : Led s h) : ∀ x ∈ h.blocks, x.1 < s.next := by
  intro x hx
  rw [hl.blocks] at hx
  have := hl.blk_lt
  have := hl.gblk_lt
  simp only [List.mem_cons, List.not_mem_nil, or_false] at hx
  rcases hx with rfl | rfl <;> simp only <;> omega

theorem mem_usedIdx {t : Map K V} (h : Rob16.Weak t) (i : Nat) : i ∈ usedIdx t ↔ i < cap t ∧ (t.ctrl i).dist ≠ 255 := by
  unfold usedIdx
  rw [List.mem_filter, List.mem_range, decide_eq_true_iff]
  constructor
  · rintro ⟨h1, h2⟩
    refine ⟨h1, fun hq => ?_⟩
    rw [hq] at h2
    split at h2
    · exact absurd h2 (by decide)
    · exact absurd h2 (by decide)
  · rintro ⟨h1, h2⟩
    refine ⟨h1, ?_⟩
    rcases h.cell i h1 with h3 | ⟨h3, _⟩
    · exact absurd h3 h2
    · split
      · exact h3
      · show (t.ctrl i).dist < 255; omega

theorem nodup_usedIdx (t : Map K V) : (usedIdx t).Nodup := List.nodup_range.filter _

theorem entries_length_le (t : Map K V) : (entries t).length ≤ cap t := by
  unfold entries
  exact Nat.le_trans (List.length_filterMap_le _ _) (by rw [List.length_range])

/-! ### Rehash -/

/-- Room for an element, with what the plain model says about it. -/
theorem makeRoomE_both (reh : Bool) {s : LT K V} (h : Tab E sec s.t) (he : ∃ z, z < cap s.t ∧ (s.t.ctrl z).dist = 255) {e : K × V} {m : Nat}
    (hm : Stop E s.t e.1 m) (hS : Spread E 254 (cap s.t) (e :: entries s.t)) {hp : Heap} {Q : Nat → Nat → Prop}
    (hb : (s.blk, cap s.t) ∈ hp.blocks) (hfresh : ∀ x ∈ hp.blocks, x.1 < s.next) (hQ : ∀ b' i', Q b' i' → b' ≠ s.blk ∧ b' < s.next)
    (hH : Holds hp (fun b' i' => Mine s.t s.blk b' i' ∨ Q b' i')) :
    ∃ s' bb l h', makeRoomE md reh (pos E s.t e.1 m) ⟨m, tagOf E sec e.1⟩ s = .ok (s', bb) ∧
      makeRoom reh (pos E s.t e.1 m) ⟨m, tagOf E sec e.1⟩ s.t = .ok (s'.t, bb) ∧ Room s hp Q (pos E s.t e.1 m) s' bb l h' ∧
      RoomOk E sec reh s.t (pos E s.t e.1 m) e s'.t bb := by
  obtain ⟨s', bb, l, h', g1, g2, g3⟩ := makeRoomE_spec (md := md) reh h he hm hS hb hfresh hQ hH
  obtain ⟨q, b, k1, k2⟩ := makeRoom_spec reh h he hm hS
  rw [g2] at k1
  simp only [Res.ok.injEq, Prod.mk.injEq] at k1
  obtain ⟨rfl, rfl⟩ := k1
  exact ⟨s', bb, l, h', g1, g2, g3, k2⟩

/-- What `move_insert_unique` does to the heap. -/
structure Put (s : LT K V) (h : Heap) (Q : Nat → Nat → Prop) (e : K × V) (s' : LT K V) (l : List Ev) (h' : Heap) : Prop where
  log : s'.log = s.log ++ l
  run : Heap.run l h = some h'
  blocks : h'.blocks = h.blocks
  blk : s'.blk = s.blk
  gblk : s'.gblk = s.gblk
  next : s.next ≤ s'.next
  mask : s'.t.mask = s.t.mask
  gmask : s'.t.gmask = s.t.gmask
  size : s'.t.size = s.t.size + 1
  perm : (entries s'.t).Perm (e :: entries s.t)
  holds : Holds h' (fun b' i' => Mine s'.t s.blk b' i' ∨ Q b' i')

theorem insertUniqueE_ok {s : LT K V} (hc : Core E sec s.t) {e : K × V} (hr : s.t.size + 1 < cap s.t)
    (hS : Spread E 254 (cap s.t) (e :: entries s.t)) {hp : Heap} {Q : Nat → Nat → Prop}
    (hb : (s.blk, cap s.t) ∈ hp.blocks) (hfresh : ∀ x ∈ hp.blocks, x.1 < s.next) (hQ : ∀ b' i', Q b' i' → b' ≠ s.blk ∧ b' < s.next)
    (hH : Holds hp (fun b' i' => Mine s.t s.blk b' i' ∨ Q b' i')) :
    ∃ s' l h', insertUniqueE md E sec e s = .ok s' ∧ insertUnique E sec e s.t = .ok s'.t ∧ Core E sec s'.t ∧ Put s hp Q e s' l h' := by
  obtain ⟨m, hm⟩ := stop_exists hc e.1
  obtain ⟨s', b, l, h', g1, g2, g3, g4⟩ := makeRoomE_both (md := md) true hc.toTab hc.exists_empty hm hS hb hfresh hQ hH
  have hbf : b = false := by
    cases b with
    | false => rfl
    | true => cases (g4.full rfl).1
  subst hbf
  have hfr := freeUnroll_spec hc.toBase hm 4 0 (by omega)
  rw [← hc.home_eq] at hfr
  have hi := hc.pos_lt (E := E) e.1 m
  generalize pos E s.t e.1 m = i at *
  obtain ⟨h3, h4⟩ := g4.done rfl
  obtain ⟨h5, h6⟩ := hc.put g4.same h3 h4 hr
  have hcap : cap s'.t = cap s.t := g4.same.cap
  have hnot : ¬ ((Mine s'.t s.blk s.blk i ∧ (false = true ∨ i ≠ i)) ∨ Q s.blk i) := by
    rintro (⟨_, hq⟩ | hq)
    · rcases hq with hq | hq
      · cases hq
      · exact hq rfl
    · exact (hQ _ _ hq).1 rfl
  obtain ⟨h2, r2, b2, p2⟩ := g3.holds.ctor (b := s.blk) (i := i) (n := cap s.t) (by rw [g3.blocks]; exact hb) hi hnot []
  refine ⟨emit [.ctor s'.blk i] { s' with t := { s'.t with slot := upd s'.t.slot i (some e), size := s'.t.size + 1 } }, l ++ [.ctor s.blk i], h2, ?_, ?_,
    h5, ?_⟩
  · unfold insertUniqueE
    rw [hfr, Res.bind_ok]
    simp only
    rw [g1, Res.bind_ok]
  · unfold insertUnique
    rw [hfr, Res.bind_ok]
    simp only
    rw [g2, Res.bind_ok]
    rfl
  · refine ⟨?_, ?_, by rw [b2, g3.blocks], g3.blk, g3.gblk, g3.next, g4.same.mask, g4.same.gmask, ?_, h6, p2.congr fun b' i' => ?_⟩
    · show s'.log ++ [.ctor s'.blk i] = _
      rw [g3.log, g3.blk, List.append_assoc]
    · rw [Life.run_append, g3.run]
      simp only [Option.bind_some]
      rw [r2]; rfl
    · show s'.t.size + 1 = _
      rw [g4.same.size]
    · show _ ↔ Mine s'.t s.blk b' i' ∨ Q b' i'
      constructor
      · rintro (⟨rfl, rfl⟩ | ⟨h1, _⟩ | h1)
        · exact Or.inl ⟨rfl, by rw [hcap]; exact hi, g3.used⟩
        · exact Or.inl h1
        · exact Or.inr h1
      · rintro (h1 | h1)
        · by_cases hq : i' = i
          · exact Or.inl ⟨h1.1, hq⟩
          · exact Or.inr (Or.inl ⟨h1, Or.inr hq⟩)
        · exact Or.inr (Or.inr h1)

theorem transferE_ok (old : Map K V) (bo : Nat) : ∀ (is : List Nat) (l : List (K × V)) (s : LT K V) (h : Heap), Core E sec s.t →
    is.map old.slot = l.map some → is.Nodup → s.t.size + l.length < cap s.t → Spread E 254 (cap s.t) (l ++ entries s.t) →
    bo ≠ s.blk → bo < s.next → (s.blk, cap s.t) ∈ h.blocks → (∀ x ∈ h.blocks, x.1 < s.next) →
    Holds h (fun b' i' => Mine s.t s.blk b' i' ∨ (b' = bo ∧ i' ∈ is)) →
    ∃ s' l' h', transferAllE md E sec old bo is s = .ok s' ∧ transferAll E sec old is s.t = .ok s'.t ∧ s'.log = s.log ++ l' ∧
      Heap.run l' h = some h' ∧ h'.blocks = h.blocks ∧ Holds h' (Mine s'.t s.blk) ∧ s'.blk = s.blk ∧ s'.gblk = s.gblk ∧
      s.next ≤ s'.next ∧ s'.t.mask = s.t.mask ∧ s'.t.gmask = s.t.gmask := by
  intro is
  induction is with
  | nil =>
    intro l s h _ _ _ _ _ _ _ _ _ hH
    exact ⟨s, [], h, rfl, rfl, by simp, rfl, rfl, hH.congr fun b i => by simp, rfl, rfl, Nat.le_refl _, rfl, rfl⟩
  | cons i is ih =>
    intro l s h hc hml hnd hroom hS hne hlt hblk hfresh hH
    cases l with
    | nil => cases hml
    | cons e l =>
      simp only [List.map_cons, List.cons.injEq] at hml
      rw [List.nodup_cons] at hnd
      rw [List.length_cons] at hroom
      have hp : ((e :: l) ++ entries s.t).Perm (l ++ e :: entries s.t) := List.perm_middle.symm
      obtain ⟨s1, l1, h1, f1, f2, f3, f4⟩ := insertUniqueE_ok (md := md) hc (e := e) (by omega)
        ((hS.perm hp.symm).sub (List.sublist_append_right l _).subperm) (Q := fun b' i' => b' = bo ∧ i' ∈ i :: is) hblk hfresh
        (fun b' i' hq => by rw [hq.1]; exact ⟨hne, hlt⟩) hH
      have hcap : cap s1.t = cap s.t := by unfold cap; rw [f4.mask]
      have hlt1 : bo < s1.next := Nat.lt_of_lt_of_le hlt f4.next
      obtain ⟨h2, r2, b2, p2⟩ := f4.holds.dtor (b := bo) (i := i) (Or.inr ⟨rfl, by simp⟩) []
      obtain ⟨s', l', h', g1, g2, g3, g4, g5, g6, g7, g8, g9, g10, g11⟩ := ih l (emit [.dtor bo i] s1) h2 f3 hml.2 hnd.2 (by
          show s1.t.size + l.length < cap s1.t
          rw [f4.size, hcap]; omega) (by
          show Spread E 254 (cap s1.t) (l ++ entries s1.t)
          rw [hcap]; exact hS.perm ((f4.perm.append_left l).trans hp.symm)) (by
          show bo ≠ s1.blk
          rw [f4.blk]; exact hne) hlt1 (by
          show (s1.blk, cap s1.t) ∈ h2.blocks
          rw [b2, f4.blocks, f4.blk, hcap]; exact hblk) (by
          intro x hx
          rw [b2, f4.blocks] at hx
          exact Nat.lt_of_lt_of_le (hfresh x hx) f4.next) (p2.congr fun b' i' => by
          show _ ↔ Mine s1.t s1.blk b' i' ∨ (b' = bo ∧ i' ∈ is)
          rw [f4.blk]
          constructor
          · rintro ⟨x1 | ⟨x1, x2⟩, x3⟩
            · exact Or.inl x1
            · refine Or.inr ⟨x1, ?_⟩
              rcases List.mem_cons.mp x2 with x4 | x4
              · exact absurd ⟨x1, x4⟩ x3
              · exact x4
          · rintro (x1 | ⟨x1, x2⟩)
            · exact ⟨Or.inl x1, fun x3 => hne (x3.1.symm.trans x1.1)⟩
            · exact ⟨Or.inr ⟨x1, List.mem_cons_of_mem _ x2⟩, fun x3 => hnd.1 (x3.2 ▸ x2)⟩)
      refine ⟨s', l1 ++ [.dtor bo i] ++ l', h', ?_, ?_, ?_, ?_, by rw [g5, b2, f4.blocks], ?_, g7.trans f4.blk, g8.trans f4.gblk,
        Nat.le_trans f4.next g9, g10.trans f4.mask, g11.trans f4.gmask⟩
      · unfold transferAllE
        rw [hml.1]
        simp only
        rw [f1]
        exact g1
      · unfold transferAll
        rw [hml.1]
        simp only
        rw [f2]
        exact g2
      · rw [g3]
        show s1.log ++ [Ev.dtor bo i] ++ l' = _
        rw [f4.log]; simp
      · rw [Life.run_append, Life.run_append, f4.run]
        simp only [Option.bind_some]
        rw [r2]
        exact g4
      · have : Holds h' (Mine s'.t s1.blk) := g6
        rwa [f4.blk] at this

/-- The outcomes of `rehash_impl` to a capacity into which the elements fit. -/
theorem rehashImplE_agree {s : LT K V} (hf : Fine s) (hw : Rob16.Weak s.t) (sh al : Bool) {mem : Mem} (hmem : mem ≠ .noSlots) (n : Nat)
    (hfit : ∀ c, calcCapacity n = .ok c → Fits E c (entries s.t)) :
    Agree (rehashImplE md E sec sh al mem n s) (rehashImpl E sec sh al mem n s.t) := by
  unfold rehashImplE rehashImpl
  cases hcalc : calcCapacity n with
  | ub => trivial
  | diverge => trivial
  | ok c =>
    simp only
    obtain ⟨hlt, hS⟩ := hfit c hcalc
    have hcalc' := hcalc
    rw [calcCapacity_eq] at hcalc'
    obtain ⟨j, hj, rfl, _, _⟩ := Robin.calcCapacity_ok hcalc'
    split
    · unfold createE createGroup
      simp only
      by_cases h1 : mem = .noGroups ∨ memLimit < 2 ^ j
      · rw [if_pos h1]
        simp only
        rw [if_pos h1]
        exact ⟨rfl, hf⟩
      · rw [if_neg h1, if_neg hmem]
        rw [not_or] at h1
        simp only
        rw [if_neg hw.clen, if_neg hw.clen]
        have hj48 : j ≤ 48 := by
          by_contra hc
          have := Robin.pow_two_le (a := 49) (b := j) (by omega)
          unfold memLimit at h1
          omega
        obtain ⟨f1, f2, f3⟩ := freshMap_inv (K := K) (V := V) (E := E) (sec := sec) hj hj48 s.t.mlf s.t.rev
        obtain ⟨h, hl⟩ := hf
        let g := (2 ^ j + 15) / 16 - 1
        let h1' : Heap := { h with blocks := (s.next + 1, 2 ^ j) :: (s.next, g + 2) :: h.blocks }
        have hfr := hl.fresh
        have hrun1 : Heap.run [.alloc s.next (g + 2), .alloc (s.next + 1) (2 ^ j)] h = some h1' := by
          simp only [Heap.run]
          rw [step_alloc (by intro x hx; have := hfr x hx; omega)]
          simp only [Option.bind_some]
          rw [step_alloc (h := { h with blocks := (s.next, g + 2) :: h.blocks }) (by
            intro x hx
            rcases List.mem_cons.mp hx with rfl | hx
            · simp only; omega
            · have := hfr x hx; omega)]
          rfl
        let s1 : LT K V := emit [.alloc s.next (g + 2), .alloc (s.next + 1) (2 ^ j)]
          { s with t := freshMap (2 ^ j) s.t.mlf s.t.rev, gblk := s.next, blk := s.next + 1, next := s.next + 2 }
        have hempty : ∀ i, i < 2 ^ j → ((freshMap (2 ^ j) s.t.mlf s.t.rev : Map K V).ctrl i).dist = 255 := by
          intro i hi
          by_contra hc
          obtain ⟨e, he, _⟩ := f1.cell i (by rw [f3]; exact hi) hc
          cases he
        obtain ⟨s', l', h', g1, g2, g3, g4, g5, g6, g7, g8, g9, g10, g11⟩ := transferE_ok (md := md) s.t s.blk (usedIdx s.t) (entries s.t) s1 h1'
          f1 hw.usedIdx_slots (nodup_usedIdx _) (by
            show 0 + (entries s.t).length < cap (freshMap (2 ^ j) s.t.mlf s.t.rev)
            rw [f3]; omega) (by
            show Spread E 254 (cap (freshMap (2 ^ j) s.t.mlf s.t.rev)) (entries s.t ++ entries (freshMap (2 ^ j) s.t.mlf s.t.rev))
            rw [f2, f3, List.append_nil]; exact hS) (by
            show s.blk ≠ s.next + 1
            have := hl.blk_lt; omega) (by
            show s.blk < s.next + 2
            have := hl.blk_lt; omega) (by
            show (s.next + 1, cap (freshMap (2 ^ j) s.t.mlf s.t.rev)) ∈ _
            rw [f3]; exact List.mem_cons_self) (by
            intro x hx
            show x.1 < s.next + 2
            rcases List.mem_cons.mp hx with rfl | hx
            · simp only; omega
            · rcases List.mem_cons.mp hx with rfl | hx
              · simp only; omega
              · have := hfr x hx; omega) (by
            refine Holds.congr (P := Mine s.t s.blk) ⟨hl.holds.nodup, hl.holds.mem⟩ fun b i => ?_
            show _ ↔ Mine (freshMap (2 ^ j) s.t.mlf s.t.rev) (s.next + 1) b i ∨ _
            rw [mem_usedIdx hw]
            constructor
            · rintro ⟨x1, x2⟩; exact Or.inr ⟨x1, x2⟩
            · rintro (⟨_, x2, x3⟩ | ⟨x1, x2⟩)
              · rw [f3] at x2
                exact absurd (hempty i x2) x3
              · exact ⟨x1, x2⟩)
        have e1 : transferAllE md E sec s.t s.blk (usedIdx s.t) s1 = .ok s' := g1
        have e2 : transferAll E sec s.t (usedIdx s.t) (freshMap (2 ^ j) s.t.mlf s.t.rev) = .ok s'.t := g2
        unfold freshMap at e2
        simp only [s1, g, freshMap] at e1
        rw [e1, e2]
        refine ⟨rfl, rfl, ?_⟩
        have hb1 := hl.blk_lt
        have hb2 := hl.gblk_lt
        have hlive' : ∀ o ∈ h'.live, o.1 = s.next + 1 := by
          rintro ⟨b, i⟩ ho
          exact ((g6.mem b i).mp ho).1
        have hb0 : h'.blocks = (s.next + 1, 2 ^ j) :: (s.next, g + 2) :: [(s.blk, cap s.t), (s.gblk, s.t.gmask + 2)] := by
          rw [g5, ← hl.blocks]
        have hcap' : cap s'.t = 2 ^ j := by
          unfold cap; rw [g10]; exact f3
        have hg' : s'.t.gmask = g := g11
        have hnx : s.next + 2 ≤ s'.next := g9
        refine ⟨{ h' with blocks := [(s.next + 1, 2 ^ j), (s.next, g + 2)] }, ?_, ?_, ⟨g6.nodup, ?_⟩, ?_, ?_, ?_⟩
        · show Heap.run (s'.log ++ freeEv s.t s.blk s.gblk) _ = _
          rw [Life.run_append, g3]
          show (Heap.run (s.log ++ [.alloc s.next (g + 2), .alloc (s.next + 1) (2 ^ j)] ++ l') Heap.empty).bind _ = _
          rw [Life.run_append, Life.run_append, hl.run]
          simp only [Option.bind_some]
          rw [hrun1]
          simp only [Option.bind_some]
          rw [g4]
          simp only [Option.bind_some, freeEv, Heap.run]
          rw [step_free (by rw [hb0]; simp) (by intro o ho; rw [hlive' o ho]; omega)]
          simp only [Option.bind_some]
          rw [hb0, erase_skip (by simp only; omega), erase_skip (by simp only; omega), erase_hit]
          rw [step_free (h := { h' with blocks := [(s.next + 1, 2 ^ j), (s.next, g + 2), (s.gblk, s.t.gmask + 2)] })
            (by simp) (by intro o ho; rw [hlive' o ho]; omega)]
          simp only [Option.bind_some]
          rw [erase_skip (by simp only; omega), erase_skip (by simp only; omega), erase_hit]
        · show _ = [(s'.blk, cap s'.t), (s'.gblk, s'.t.gmask + 2)]
          rw [hcap', hg', g7, g8]; rfl
        · intro b i
          show (b, i) ∈ h'.live ↔ Mine s'.t s'.blk b i
          rw [g6.mem, g7]
        · show s'.blk < s'.next
          rw [g7]; show s.next + 1 < s'.next; omega
        · show s'.gblk < s'.next
          rw [g8]; show s.next < s'.next; omega
        · show s'.blk ≠ s'.gblk
          rw [g7, g8]; show s.next + 1 ≠ s.next; omega
    · exact ⟨rfl, rfl, hf⟩

theorem growE_agree {s : LT K V} (hf : Fine s) (hw : Rob16.Weak s.t) (hS : Spread E 254 (cap s.t) (entries s.t)) {mem : Mem} (hmem : mem ≠ .noSlots) :
    Agree (growE md E sec mem s) (grow E sec mem s.t) := by
  unfold growE grow
  apply rehashImplE_agree hf hw _ _ hmem
  intro c hc
  obtain ⟨j, h1, h2, h3⟩ := hw.pow
  have hge := hw.cap_ge
  have hle := hw.cap_le
  have hW : cap s.t * 2 % W = 2 ^ (j + 1) := by
    rw [Nat.mod_eq_of_lt, h3, Nat.pow_succ]
    unfold W; omega
  rw [hW, calcCapacity_eq, Robin.calcCapacity_pow (by omega)] at hc
  cases hc
  have h2c : 2 ^ (j + 1) = 2 * cap s.t := by rw [Nat.pow_succ, h3]; omega
  rw [h2c]
  have := entries_length_le s.t
  exact ⟨by omega, hS.double (by omega)⟩

/-! ### Insertion -/

theorem prepareE_agree (hE : E.Lawful) {mem : Mem} (hmem : mem ≠ .noSlots) (k : K) : ∀ (f j : Nat) (s : LT K V), Live E sec s.t →
    Spread E 254 (cap s.t) (entries s.t) → Fine s → cap s.t = 2 ^ j →
    Agree (prepareE md E sec mem k f s) (prepare E sec mem k f s.t) := by
  intro f
  induction f with
  | zero => intro j s _ _ _ _; trivial
  | succ f ih =>
    intro j s h hS hf hj
    have hgrow : Agree ((growE md E sec mem s).bind fun s' _ => prepareE md E sec mem k f s')
        ((grow E sec mem s.t).bind fun t' _ => prepare E sec mem k f t') := by
      apply (growE_agree hf h.toTab.weak hS hmem).bind
      intro s1 u hf1 he
      rcases grow_spec h.toTab.weak (by rw [← h.size]; exact Nat.le_of_lt h.room) hS mem hj with ⟨t1, h1, h2, h3⟩ | ⟨t1, h1, h2, h3⟩
      · rw [h1, Out.ok.injEq] at he
        have h4 : t1 = s1.t := he.1
        subst h4
        exact ih (j + 1) s1 (h3.live hE h.distinct h.mlf) (((h3.wider hj).spread _ _ hS).perm h3.perm) hf1 h3.cap
      · rw [h1] at he; cases he
    unfold prepareE prepare
    apply Agree.lift
    intro p _
    cases p with
    | hit i => exact ⟨rfl, rfl, hf⟩
    | full => exact hgrow
    | stop i d =>
      simp only
      split
      · exact hgrow
      · exact ⟨rfl, rfl, hf⟩

theorem emplaceE_agree (hE : E.Lawful) (update : Bool) {mem : Mem} (hmem : mem ≠ .noSlots) (k : K) (v : V) : ∀ (f : Nat) (s : LT K V),
    Live E sec s.t → TagOk E sec s.t k → Spread E 254 (cap s.t) ((k, v) :: entries s.t) → Fine s →
    Agree (emplaceE md E sec update mem true k v f s) (emplace E sec update mem true k v f s.t) := by
  intro f
  induction f with
  | zero => intro s _ _ _ _; trivial
  | succ f ih =>
    intro s h hk hS hf
    obtain ⟨j, h1, h2, hj⟩ := h.pow
    have hS0 : Spread E 254 (cap s.t) (entries s.t) := hS.sub (List.sublist_cons_self _ _).subperm
    have hsp := prepare_spec hE mem k 64 j s.t h hk hS0 hj (by omega)
    unfold emplaceE emplace
    apply (prepareE_agree hE hmem k 64 j s h hS0 hf hj).bind
    intro s' r hf' he
    rw [he] at hsp
    match r, hsp with
    | (i, none), ⟨g1, g2, g3, e, g4, g5⟩ =>
      simp only
      have hse : s'.t.slot i = some e := by rw [g1]; exact g4
      rw [hse]
      simp only
      obtain ⟨hp, hl⟩ := hf'
      refine ⟨?_, rfl, hp, ?_⟩
      · split <;> rfl
      · split
        · exact hl.congr rfl rfl (fun _ _ => Iff.rfl)
        · exact hl
    | (i, some m), ⟨g1, g2, g3, g4, g5, g6, g7⟩ =>
      simp only
      subst g4
      obtain ⟨hp, hl⟩ := hf'
      have hS' : Spread E 254 (cap s'.t) ((k, v) :: entries s'.t) := (g7.spread _ _ hS).perm (g6.cons _)
      obtain ⟨s2, bb, l, h', k1, k2, k3, k4⟩ := makeRoomE_both (md := md) (e := (k, v)) false g2.toTab g2.exists_empty g3 hS' (hp := hp)
        (Q := fun _ _ => False) (by rw [hl.blocks]; simp) hl.fresh (fun _ _ hq => hq.elim) (hl.holds.congr fun b i => by simp)
      rw [k1, k2]
      simp only [liftE, Rob16.lift]
      have hrun2 : Heap.run s2.log Heap.empty = some h' := by
        rw [k3.log, Life.run_append, hl.run]; exact k3.run
      have hb2 : h'.blocks = [(s2.blk, cap s2.t), (s2.gblk, s2.t.gmask + 2)] := by
        rw [k3.blocks, hl.blocks, k3.blk, k3.gblk, k4.same.cap, k4.same.gmask]
      have hn1 : s2.blk < s2.next := by rw [k3.blk]; exact Nat.lt_of_lt_of_le hl.blk_lt k3.next
      have hn2 : s2.gblk < s2.next := by rw [k3.gblk]; exact Nat.lt_of_lt_of_le hl.gblk_lt k3.next
      have hn3 : s2.blk ≠ s2.gblk := by rw [k3.blk, k3.gblk]; exact hl.ne
      have hi := g2.pos_lt (E := E) k m
      cases bb with
      | false =>
        simp only [Bool.false_eq_true, if_false, if_true]
        refine ⟨rfl, rfl, ?_⟩
        have hnot : ¬ ((Mine s2.t s'.blk s'.blk (pos E s'.t k m) ∧ (false = true ∨ pos E s'.t k m ≠ pos E s'.t k m)) ∨ False) := by
          rintro (⟨_, hq | hq⟩ | hq)
          · cases hq
          · exact hq rfl
          · exact hq
        obtain ⟨h2, r2, b2, p2⟩ := k3.holds.ctor (b := s'.blk) (i := pos E s'.t k m) (n := cap s'.t) (by rw [k3.blocks, hl.blocks]; simp) hi hnot []
        refine ⟨h2, ?_, ?_, p2.congr fun b' i' => ?_, hn1, hn2, hn3⟩
        · show Heap.run (s2.log ++ [.ctor s2.blk _]) _ = _
          rw [Life.run_append, hrun2, k3.blk]
          simp only [Option.bind_some]
          rw [r2]; rfl
        · rw [b2]; exact hb2
        · show _ ↔ Mine s2.t s2.blk b' i'
          rw [k3.blk]
          constructor
          · rintro (⟨rfl, rfl⟩ | ⟨h1, _⟩ | h1)
            · exact ⟨rfl, by rw [k4.same.cap]; exact hi, k3.used⟩
            · exact h1
            · exact h1.elim
          · intro h1
            by_cases hq : i' = pos E s'.t k m
            · exact Or.inl ⟨h1.1, hq⟩
            · exact Or.inr (Or.inl ⟨h1, Or.inr hq⟩)
      | true =>
        simp only [if_true]
        obtain ⟨_, x3, x4, x5⟩ := k4.full rfl
        have hf2 : Fine s2 := by
          refine ⟨h', hrun2, hb2, k3.holds.congr fun b' i' => ?_, hn1, hn2, hn3⟩
          rw [k3.blk]; simp
        have hwid : Wider E s.t s2.t := g7.trans k4.same.wider
        have hpq : (entries s2.t).Perm (entries s.t) := x5.trans g6
        have hSq : Spread E 254 (cap s2.t) (entries s2.t) := (hwid.spread _ _ hS0).perm hpq
        apply (growE_agree hf2 x4 hSq hmem).bind
        intro s3 u hf3 he3
        obtain ⟨jq, y1, y2, hjq⟩ := x4.pow
        rcases grow_spec (E := E) (sec := sec) x4 (entries_length_le _) hSq mem hjq with ⟨t1, z1, z2, z3⟩ | ⟨t1, z1, z2, z3⟩
        · rw [z1, Out.ok.injEq] at he3
          have h4 : t1 = s3.t := he3.1
          subst h4
          have hw1 : Wider E s.t s3.t := hwid.trans (z3.wider hjq)
          have hp1 : (entries s3.t).Perm (entries s.t) := z3.perm.trans hpq
          have hd1 : Distinct E.eq (entries s2.t) := h.distinct.perm hE hpq.symm
          exact ih s3 (z3.live hE hd1 (by rw [hwid.mlf]; exact h.mlf)) (hk.mono hw1.le) ((hw1.spread _ _ hS).perm (hp1.cons _)) hf3
        · rw [z1] at he3; cases he3

/-! ### Erasing, clearing -/

/-- The backward shift: the hole wanders behind the last element that moves; the objects are those of the used slots. -/
theorem eraseLoopE_ok {L : List (K × V)} {b : Nat} : ∀ (f i : Nat) (t : Map K V) (h : Heap), Hole E sec t i L →
    (b, cap t) ∈ h.blocks → Holds h (fun b' i' => Mine t b b' i' ∧ i' ≠ i) →
    (∃ t' l h', eraseLoopE b f i t = .ok (t', l) ∧ eraseLoop false f i t = .ok t' ∧ Heap.run l h = some h' ∧ h'.blocks = h.blocks ∧
      Holds h' (Mine t' b) ∧ t'.mask = t.mask ∧ t'.gmask = t.gmask) ∨
    (eraseLoopE b f i t = .ub ∧ eraseLoop false f i t = .ub) ∨ (eraseLoopE b f i t = .diverge ∧ eraseLoop false f i t = .diverge) := by
  intro f
  induction f with
  | zero => intro i t h _ _ _; exact Or.inr (Or.inr ⟨rfl, rfl⟩)
  | succ f ih =>
    intro i t h hH hb hP
    unfold eraseLoopE eraseLoop
    by_cases h1 : i + 1 < t.clen
    · rw [if_pos h1, if_pos h1]
      by_cases h2 : (t.ctrl (i + 1)).dist = bEmpty ∨ (t.ctrl (i + 1)).dist = 0
      · rw [if_pos h2, if_pos h2]
        left
        have hw := wrote_setEmpty hH.lt
        refine ⟨_, _, h, rfl, rfl, rfl, rfl, hP.congr fun b' i' => ?_, rfl, rfl⟩
        show Mine t b b' i' ∧ _ ↔ (b' = b ∧ i' < cap t ∧ ((setEmpty t i).ctrl i').dist ≠ 255)
        constructor
        · rintro ⟨⟨x1, x2, x3⟩, x4⟩
          exact ⟨x1, x2, by rw [hw.other _ x2 x4]; exact x3⟩
        · rintro ⟨x1, x2, x3⟩
          by_cases hq : i' = i
          · rw [hq, hw.self] at x3
            exact absurd rfl x3
          · rw [hw.other _ x2 hq] at x3
            exact ⟨⟨x1, x2, x3⟩, hq⟩
      · rw [if_neg h2, if_neg h2]
        by_cases h3 : i + 1 < cap t
        · rw [if_pos h3, if_pos h3]
          have h4 : (t.ctrl (i + 1)).dist ≠ 255 := fun hq => h2 (Or.inl hq)
          have h5 : (t.ctrl (i + 1)).dist ≠ 0 := fun hq => h2 (Or.inr hq)
          obtain ⟨e, he, hS, ho⟩ := hH.shift false h3 h4 h5
          rw [he]
          simp only
          have hw : Wrote t (Rob16.shift false t i e).ctrl i ⟨(t.ctrl (i + 1)).dist - 1, (t.ctrl (i + 1)).tag⟩ := wrote_setUsed hH.lt _
          have hbd := hH.base.bound (i + 1) h3
          obtain ⟨ha, r1, b1, p1⟩ := hP.ctor (b := b) (i := i) hb hH.lt (fun hq => hq.2 rfl) [.dtor b (i + 1)]
          obtain ⟨hc, r2, b2, p2⟩ := p1.dtor (b := b) (i := i + 1) (Or.inr ⟨⟨rfl, h3, h4⟩, by omega⟩) []
          rcases ih (i + 1) (Rob16.shift false t i e) hc hS (by rw [b2, b1]; exact hb) (p2.congr fun b' i' => by
              show _ ↔ (b' = b ∧ i' < cap t ∧ ((Rob16.shift false t i e).ctrl i').dist ≠ 255) ∧ _
              constructor
              · rintro ⟨⟨rfl, rfl⟩ | ⟨⟨x1, x2, x3⟩, x4⟩, x5⟩
                · refine ⟨⟨rfl, hH.lt, ?_⟩, by omega⟩
                  rw [hw.self]
                  show (t.ctrl (i' + 1)).dist - 1 ≠ 255
                  omega
                · refine ⟨⟨x1, x2, by rw [ho _ x2 x4]; exact x3⟩, fun hq => x5 ⟨x1, hq⟩⟩
              · rintro ⟨⟨x1, x2, x3⟩, x4⟩
                refine ⟨?_, fun hq => x4 hq.2⟩
                by_cases hq : i' = i
                · exact Or.inl ⟨x1, hq⟩
                · rw [ho _ x2 hq] at x3
                  exact Or.inr ⟨⟨x1, x2, x3⟩, hq⟩) with ⟨t', l, h', g1, g2, g3, g4, g5, g6, g7⟩ | ⟨g1, g2⟩ | ⟨g1, g2⟩
          · left
            refine ⟨t', [.ctor b i, .dtor b (i + 1)] ++ l, h', ?_, g2, ?_, by rw [g4, b2, b1], g5, g6, g7⟩
            · unfold Rob16.shift at g1
              rw [g1, Res.bind_ok]
            · rw [Life.run_append, r1, r2]
              exact g3
          · right; left
            refine ⟨?_, g2⟩
            unfold Rob16.shift at g1
            rw [g1]; rfl
          · right; right
            refine ⟨?_, g2⟩
            unfold Rob16.shift at g1
            rw [g1]; rfl
        · rw [if_neg h3, if_neg h3]
          exact Or.inr (Or.inl ⟨rfl, rfl⟩)
    · rw [if_neg h1, if_neg h1]
      exact Or.inr (Or.inl ⟨rfl, rfl⟩)

theorem eraseKeyE_agree (hE : E.Lawful) {s : LT K V} (hf : Fine s) (hL : Live E sec s.t) {k : K} (hk : TagOk E sec s.t k) :
    Agree (eraseKeyE E sec k s) (eraseKey E sec false k s.t) := by
  unfold eraseKeyE eraseKey
  apply Agree.lift
  intro r hr
  cases r with
  | none => exact ⟨rfl, rfl, hf⟩
  | some i =>
    rcases find_spec hE hL.toInv hk with ⟨j, e, h1, h2, h3, h4, _⟩ | ⟨h1, _⟩
    · rw [hr] at h1
      cases h1
      simp only
      obtain ⟨h, hl⟩ := hf
      unfold eraseSlotE eraseSlot
      rw [h4]
      simp only
      have hH : Hole E sec { s.t with slot := dropSlot false s.t.slot i, size := (s.t.size + W - 1) % W } i
          ((List.range (cap s.t)).filterMap (upd (cellAt s.t) i none)) := by
        refine ⟨⟨hL.pow, hL.gmask, hL.clen, hL.bound, hL.order, hL.mirror, hL.tail⟩, h2, h3, ?_, ?_⟩
        · intro x hx hxi
          have hc := hL.cell x hx
          unfold CellOk at hc ⊢
          show _ → ∃ e, dropSlot false s.t.slot i x = some e ∧ _
          rw [dropSlot_other _ _ hxi]
          exact hc
        · refine List.Perm.of_eq (filterMap_congr' ?_)
          intro x hx
          by_cases hxi : x = i
          · subst hxi; rw [upd_self, upd_self]
          · rw [upd_other _ _ hxi, upd_other _ _ hxi]
            unfold cellAt
            show (if used s.t x then dropSlot false s.t.slot i x else none) = _
            rw [dropSlot_other _ _ hxi]
      obtain ⟨ha, r1, b1, p1⟩ := hl.holds.dtor (b := s.blk) (i := i) ⟨rfl, h2, h3⟩ []
      rcases eraseLoopE_ok (b := s.blk) (s.t.clen + 1) i _ ha hH (by rw [b1, hl.blocks]; exact List.mem_cons_self) (p1.congr fun b' i' => by
          show _ ↔ (b' = s.blk ∧ i' < cap s.t ∧ (s.t.ctrl i').dist ≠ 255) ∧ _
          constructor
          · rintro ⟨x1, x2⟩; exact ⟨x1, fun hq => x2 ⟨x1.1, hq⟩⟩
          · rintro ⟨x1, x2⟩; exact ⟨x1, fun hq => x2 hq.2⟩) with ⟨t', l, h', g1, g2, g3, g4, g5, g6, g7⟩ | ⟨g1, g2⟩ | ⟨g1, g2⟩
      · rw [g1, g2]
        simp only [Res.bind_ok, liftE, Rob16.lift]
        have hc' : cap t' = cap s.t := by unfold cap; rw [g6]
        refine ⟨rfl, rfl, h', ?_, ?_, g5, hl.blk_lt, hl.gblk_lt, hl.ne⟩
        · show Heap.run (s.log ++ (.dtor s.blk i :: l)) _ = _
          rw [Life.run_append, hl.run]
          simp only [Option.bind_some]
          have hr1 : Heap.run [.dtor s.blk i] h = some ha := by rw [r1]; rfl
          rw [show (Ev.dtor s.blk i :: l) = [.dtor s.blk i] ++ l from rfl, Life.run_append, hr1]
          exact g3
        · show _ = [(s.blk, cap t'), (s.gblk, t'.gmask + 2)]
          rw [g4, b1, hl.blocks, hc', g7]
      · rw [g1, g2]; trivial
      · rw [g1, g2]; trivial
    · rw [hr] at h1; cases h1

theorem mem_destroy {t : Map K V} (h : Rob16.Weak t) (i : Nat) : i ∈ (List.range (cap t)).filter (used t) ↔ i < cap t ∧ (t.ctrl i).dist ≠ 255 := by
  rw [List.mem_filter, List.mem_range]
  unfold used bEmpty
  rw [decide_eq_true_iff]
  constructor
  · rintro ⟨h1, h2⟩; exact ⟨h1, by omega⟩
  · rintro ⟨h1, h2⟩
    rcases h.cell i h1 with h3 | ⟨h3, _⟩
    · exact absurd h3 h2
    · exact ⟨h1, by omega⟩

/-- The elements are destroyed. -/
theorem destroyEv_run {s : LT K V} {h : Heap} (hl : Led s h) (hw : Rob16.Weak s.t) :
    ∃ h', Heap.run (destroyEv s.t s.blk) h = some h' ∧ h'.blocks = h.blocks ∧ h'.live = [] := by
  obtain ⟨h', h1, h2, h3, h4⟩ := Life.run_dtors s.blk ((List.range (cap s.t)).filter (used s.t)) h hl.holds.nodup (List.nodup_range.filter _) (by
    intro i hi
    rw [hl.holds.mem]
    exact ⟨rfl, (mem_destroy hw i).mp hi⟩)
  refine ⟨h', h1, h2, ?_⟩
  rw [List.eq_nil_iff_forall_not_mem]
  rintro ⟨b, i⟩ hm
  rw [h4, hl.holds.mem] at hm
  exact hm.2 ⟨hm.1.1, (mem_destroy hw i).mpr hm.1.2⟩

/-- `destroy<true>()`: every element is destroyed, both blocks are given back. -/
theorem destroyE_run {s : LT K V} {h : Heap} (hl : Led s h) (hw : Rob16.Weak s.t) :
    Heap.run (destroyE s).log Heap.empty = some Heap.empty := by
  show Heap.run (s.log ++ (destroyEv s.t s.blk ++ freeEv s.t s.blk s.gblk)) _ = _
  rw [Life.run_append, hl.run]
  simp only [Option.bind_some]
  obtain ⟨h', h1, h2, h5⟩ := destroyEv_run hl hw
  rw [Life.run_append, h1]
  simp only [Option.bind_some, freeEv, Heap.run]
  rw [step_free (by rw [h2, hl.blocks]; simp) (by rw [h5]; simp)]
  simp only [Option.bind_some, h2, hl.blocks]
  rw [erase_hit, step_free (by simp) (by simp [h5])]
  simp only [Option.bind_some]
  rw [erase_hit, h5]
  rfl

theorem createE_empty {s : LT K V} (hr : Heap.run s.log Heap.empty = some Heap.empty) {j : Nat} (hj : 2 ≤ j) (mem : Mem) (hmem : mem ≠ .noSlots) :
    Agree (createE mem (2 ^ j) s) (createGroup mem (2 ^ j) s.t) ∨ (createE mem (2 ^ j) s = .throw s ∧ createGroup mem (2 ^ j) s.t = .throw s.t) := by
  unfold createE createGroup
  simp only
  by_cases h1 : mem = .noGroups ∨ memLimit < 2 ^ j
  · right
    rw [if_pos h1]
    simp only [if_pos h1, and_true]
  · left
    rw [if_neg h1, if_neg hmem]
    have h4 : 4 ≤ 2 ^ j := Robin.pow_two_le (a := 2) hj
    rw [not_or] at h1
    have hj48 : j ≤ 48 := by
      by_contra hc
      have := Robin.pow_two_le (a := 49) (b := j) (by omega)
      unfold memLimit at h1
      omega
    obtain ⟨f1, f2, f3⟩ := freshMap_inv (K := K) (V := V) (E := ⟨fun _ => 0, fun _ _ => true⟩) (sec := id) hj hj48 s.t.mlf s.t.rev
    have hempty : ∀ i, i < 2 ^ j → ((freshMap (2 ^ j) s.t.mlf s.t.rev : Map K V).ctrl i).dist = 255 := by
      intro i hi
      by_contra hc
      obtain ⟨e, he, _⟩ := f1.cell i (by rw [f3]; exact hi) hc
      cases he
    refine ⟨rfl, rfl, ⟨[(s.next + 1, 2 ^ j), (s.next, (2 ^ j + 15) / 16 - 1 + 2)], []⟩, ?_, ?_, ⟨List.nodup_nil, ?_⟩, ?_, ?_, ?_⟩
    · show Heap.run (s.log ++ [.alloc s.next ((2 ^ j + 15) / 16 - 1 + 2), .alloc (s.next + 1) (2 ^ j)]) _ = _
      rw [Life.run_append, hr]
      simp only [Option.bind_some, Heap.run]
      rw [step_alloc (by simp [Heap.empty])]
      simp only [Option.bind_some]
      rw [step_alloc (by simp [Heap.empty])]
      rfl
    · show _ = [(s.next + 1, 2 ^ j - 1 + 1), (s.next, (2 ^ j + 15) / 16 - 1 + 2)]
      rw [Nat.sub_add_cancel (by omega)]
    · intro b i
      show (b, i) ∈ ([] : List (Nat × Nat)) ↔ Mine (freshMap (2 ^ j) s.t.mlf s.t.rev) (s.next + 1) b i
      constructor
      · intro hq; cases hq
      · rintro ⟨_, x2, x3⟩
        rw [f3] at x2
        exact absurd (hempty i x2) x3
    · show s.next + 1 < s.next + 2; omega
    · show s.next < s.next + 2; omega
    · show s.next + 1 ≠ s.next; omega

theorem clearE_agree {s : LT K V} (hf : Fine s) (hL : Live E sec s.t) (d : Bool) : Agree (clearE d s) (clear false d s.t) := by
  obtain ⟨h, hl⟩ := hf
  unfold clearE clear
  by_cases h1 : (decide (4 < cap s.t) && d) = true
  · rw [if_pos h1, if_pos h1]
    rcases createE_empty (s := destroyE s) (destroyE_run hl hL.toTab.weak) (j := 2) (by omega) .ok (by decide) with h2 | ⟨_, h2⟩
    · exact h2
    · exfalso
      unfold createGroup at h2
      simp only at h2
      rw [if_neg (by unfold memLimit; simp), if_neg (by simp)] at h2
      cases h2
  · rw [if_neg h1, if_neg h1]
    apply Agree.lift
    intro t' ht'
    obtain ⟨h', k1, k2, k3⟩ := destroyEv_run hl hL.toTab.weak
    obtain ⟨sl, hsl⟩ := destroySlots_spec hL.toTab false
    rw [hsl, Res.ok.injEq] at ht'
    subst ht'
    have hg := hL.gmask
    have hN : cap s.t ≤ (s.t.gmask + 1) * 16 := by
      rcases hL.cap_cases with hc | hc | ⟨m, hm, hc⟩ <;> rw [hc] at hg ⊢ <;> omega
    refine ⟨rfl, rfl, h', ?_, ?_, ⟨by rw [k3]; exact List.nodup_nil, ?_⟩, hl.blk_lt, hl.gblk_lt, hl.ne⟩
    · show Heap.run (s.log ++ destroyEv s.t s.blk) _ = _
      rw [Life.run_append, hl.run]; exact k1
    · rw [k2, hl.blocks]; rfl
    · intro b i
      rw [k3]
      show (b, i) ∈ ([] : List (Nat × Nat)) ↔ (b = s.blk ∧ i < cap s.t ∧ (if i < (s.t.gmask + 1) * 16 then (⟨bEmpty, 0⟩ : Ctrl) else s.t.ctrl i).dist ≠ 255)
      constructor
      · intro hq; cases hq
      · rintro ⟨_, x2, x3⟩
        rw [if_pos (by omega)] at x3
        exact absurd rfl x3

/-! ### Histories -/

/-- One call. -/
theorem execE_agree (hE : E.Lawful) {rv : Nat → Nat} {s : LT K V} (hR : Reach E sec s.t) (hf : Fine s) {m : Spec.Map K V}
    (hm : (entries s.t).Perm m) {mem : Mem} (hmem : mem ≠ .noSlots) {c : Call K V} (hs : Safe E sec rv s.t m c) :
    Agree (execE md E sec rv mem c s) (exec E sec false rv mem c s.t) := by
  have hfit : ∀ {n : Nat}, (∀ c, calcCapacity n = .ok c → Fits E c m) → ∀ c, calcCapacity n = .ok c → Fits E c (entries s.t) :=
    fun h c hc => ⟨by rw [hm.length_eq]; exact (h c hc).1, (h c hc).2.perm hm⟩
  have hput : ∀ update k v, TagOk E sec s.t k → Spread E 254 (cap s.t) ((k, v) :: m) →
      Agree (emplaceE md E sec update mem true k v 64 s) (insert E sec update mem true k v s.t) :=
    fun update k v h1 h2 => emplaceE_agree hE update hmem k v 64 s hR.toLive h1 (h2.perm (hm.cons _)) hf
  have helem : ∀ update k v, TagOk E sec s.t k → Spread E 254 (cap s.t) ((k, v) :: m) →
      Agree ((emplaceE md E sec update mem true k v 64 s).bind readElemE) ((insert E sec update mem true k v s.t).bind readElem) := by
    intro update k v h1 h2
    refine (hput update k v h1 h2).bind fun s' r hf' _ => ?_
    unfold readElemE readElem
    cases s'.t.slot r.1 with
    | none => trivial
    | some e => exact ⟨rfl, rfl, hf'⟩
  have hlift : ∀ {α : Type} (r : Res α) (f : α → Ans K V), Agree (liftE r fun a => .ok s (f a)) (Rob16.lift r fun a => .ok s.t (f a)) :=
    fun r f => Agree.lift fun a _ => ⟨rfl, rfl, hf⟩
  have hunit : ∀ {o : Out (LT K V) Unit} {o' : Out (Map K V) Unit}, Agree o o' →
      Agree (o.bind fun s' _ => .ok s' (Ans.unit : Ans K V)) (o'.bind fun t' _ => .ok t' .unit) :=
    fun h1 => h1.bind fun s' _ hf' _ => ⟨rfl, rfl, hf'⟩
  have hw := hR.toTab.weak
  cases c with
  | insert k v => exact helem false k v hs.1 hs.2
  | assign k v => exact helem true k v hs.1 hs.2
  | index k d =>
    refine (hput false k d hs.1 hs.2).bind fun s' r hf' _ => ?_
    unfold readValueE readValue
    cases s'.t.slot r.1 with
    | none => trivial
    | some e => exact ⟨rfl, rfl, hf'⟩
  | find k => exact hlift _ _
  | contains k => exact hlift _ _
  | count k => exact hlift _ _
  | «at» k => exact hlift _ _
  | erase k => exact (eraseKeyE_agree hE hf hR.toLive hs.1).bind fun s' n hf' _ => ⟨rfl, rfl, hf'⟩
  | size => exact ⟨rfl, rfl, hf⟩
  | empty => exact ⟨rfl, rfl, hf⟩
  | clear d => exact hunit (clearE_agree hf hR.toLive d)
  | reserve n => exact hunit (rehashImplE_agree hf hw true false hmem _ (hfit hs.2))
  | rehash n => exact hunit (rehashImplE_agree hf hw true false hmem _ (hfit hs))
  | shrink ro => exact hunit (rehashImplE_agree hf hw true false hmem _ (hfit hs))
  | maxLoad x =>
    have hf1 : Fine { s with t := { s.t with mlf := x % 2 ^ 32, rev := rv x } } := by
      obtain ⟨h, hl⟩ := hf
      exact ⟨h, hl.congr rfl rfl (fun _ _ => Iff.rfl)⟩
    have hw1 : Rob16.Weak { s.t with mlf := x % 2 ^ 32, rev := rv x } := ⟨hw.pow, hw.clen, hw.cell⟩
    simp only [execE, exec]
    apply hunit
    unfold setMlfE setMlf
    simp only
    split
    · exact rehashImplE_agree hf1 hw1 true false hmem _ (hfit hs.2)
    · exact ⟨rfl, rfl, hf1⟩
  | iterate => exact hlift _ _

theorem runE_ok (hE : E.Lawful) {rv : Nat → Nat} (hrv : ∀ x, 81920 ≤ rv x ∧ rv x ≤ 327680) : ∀ (cs : List (Mem × Call K V)) (s : LT K V)
    (m : Spec.Map K V), Reach E sec s.t → Fine s → (entries s.t).Perm m → Guarded E sec false rv cs s.t m →
    ∃ as s' m', runE md E sec rv cs s = .ok (as, s') ∧ run E sec false rv cs s.t = .ok (as, s'.t) ∧ Reach E sec s'.t ∧ Fine s' ∧
      (entries s'.t).Perm m' ∧ Spec.AcceptsAll E.eq m (cs.map (·.2)) as m' := by
  intro cs
  induction cs with
  | nil => intro s m hR hf hm _; exact ⟨[], s, m, rfl, rfl, hR, hf, hm, rfl⟩
  | cons p cs ih =>
    intro s m hR hf hm hg
    obtain ⟨mem, c⟩ := p
    obtain ⟨h4, h5, h6, h7⟩ := hg
    have hA := execE_agree (md := md) hE hR hf hm h4 h5
    have hstep := exec_ok hE (triv := false) hR hm hrv h4 h5
    unfold runE run
    generalize execE md E sec rv mem c s = o at hA
    generalize exec E sec false rv mem c s.t = o' at hA hstep h6 h7
    match o, o', hA, hstep with
    | .ok s1 a, .ok t1 b, ⟨e1, e2, e3⟩, ⟨g1, g2, g3⟩ =>
      subst e1; subst e2
      obtain ⟨as, s', m', k1, k2, k3, k4, k5, k6⟩ := ih s1 _ g1 e3 g3 (h6 _ _ rfl)
      refine ⟨a :: as, s', m', ?_, ?_, k3, k4, k5, _, g2, k6⟩
      · simp only [k1, Res.bind_ok]
      · simp only [k2, Res.bind_ok]
    | .throw s1, .throw t1, ⟨e1, e3⟩, ⟨g1, g2, g3⟩ =>
      subst e1
      obtain ⟨hcalm, hrest⟩ := h7 _ rfl
      obtain ⟨as, s', m', k1, k2, k3, k4, k5, k6⟩ := ih s1 m (g3 hcalm) e3 g2 hrest
      refine ⟨.threw :: as, s', m', ?_, ?_, k3, k4, k5, m, ?_, k6⟩
      · simp only [k1, Res.bind_ok]
      · simp only [k2, Res.bind_ok]
      · cases c <;> simp [Call.allocates] at g1 <;> exact ⟨rfl, rfl⟩

theorem makeE_ok {mem : Mem} {n : Nat} {s : LT K V} (h : makeE mem n = .ok s ()) : make mem n = .ok s.t () ∧ Fine s := by
  unfold makeE at h
  cases hc : calcCapacity n with
  | ub => rw [hc] at h; cases h
  | diverge => rw [hc] at h; cases h
  | ok c =>
    rw [hc] at h
    simp only at h
    have hc' := hc
    rw [calcCapacity_eq] at hc'
    obtain ⟨j, hj, rfl, _, _⟩ := Robin.calcCapacity_ok hc'
    have hm : make mem n = createGroup mem (2 ^ j) (blank : Map K V) := by unfold make; rw [hc]
    have hns : mem ≠ .noSlots := by
      rintro rfl
      unfold createE createGroup at h
      simp only at h
      split at h
      · rename_i h1
        split at h1
        · cases h1
        · cases h1
      · split at h <;> cases h
      · cases h
      · cases h
    rcases createE_empty (s := ({ t := blank, blk := 0, gblk := 0, next := 1, log := [] } : LT K V)) rfl hj mem hns with h1 | ⟨h1, _⟩
    · rw [h] at h1
      rw [hm]
      generalize createGroup mem (2 ^ j) (blank : Map K V) = o at h1
      match o, h1 with
      | .ok t1 b, ⟨e1, _, e3⟩ => subst e1; exact ⟨rfl, e3⟩
    · rw [h] at h1; cases h1

/-- As many objects as elements. -/
theorem Led.length {s : LT K V} {h : Heap} (hl : Led s h) (hw : Rob16.Weak s.t) : h.live.length = (entries s.t).length := by
  have hp : h.live.Perm ((usedIdx s.t).map fun i => (s.blk, i)) := by
    rw [List.perm_ext_iff_of_nodup hl.holds.nodup (List.Nodup.map (fun x y hxy => (Prod.mk.inj hxy).2) (nodup_usedIdx _))]
    rintro ⟨b, i⟩
    rw [hl.holds.mem, List.mem_map]
    unfold Mine
    simp only [Prod.mk.injEq, mem_usedIdx hw]
    constructor
    · rintro ⟨rfl, hs⟩; exact ⟨i, hs, rfl, rfl⟩
    · rintro ⟨j, hj, rfl, rfl⟩; exact ⟨rfl, hj⟩
  rw [hp.length_eq, List.length_map]
  have := congrArg List.length hw.usedIdx_slots
  simpa using this

/-! ### C126 -/

/-- The log of a map that the destructor may be called on: it is in order, as many objects are alive as `size()` says, and after
the destructor everything is given back, each object destroyed as often as constructed and each block returned with the count it was obtained
with. -/
def InOrder (s : LT K V) : Prop :=
  (∃ h, Heap.run s.log Heap.empty = some h ∧ h.live.Nodup ∧ h.live.length = s.t.size) ∧
  Heap.run (destroyE s).log Heap.empty = some Heap.empty ∧
  (∀ b i, (destroyE s).log.count (.ctor b i) = (destroyE s).log.count (.dtor b i)) ∧
  ∀ b k, (destroyE s).log.count (.alloc b k) = (destroyE s).log.count (.free b k)

theorem Fine.inOrder {s : LT K V} (hf : Fine s) (hc : Core E sec s.t) : InOrder s := by
  obtain ⟨h, hl⟩ := hf
  have hw := hc.toTab.weak
  have g4 := destroyE_run hl hw
  refine ⟨⟨h, hl.run, hl.holds.nodup, by rw [hl.length hw, hc.size]⟩, g4, ?_, ?_⟩
  · intro b i
    have := (Life.balance_obj b i _ _ _ List.nodup_nil g4).2
    simpa [Heap.empty] using this
  · intro b k
    have := Life.balance_block b k _ _ _ g4
    simpa [Heap.empty] using this

/-- C126 (partial): a history guarded as in C79 is defined, gives the answers of an ideal map, and its log is in order, however elements are
exchanged.  After an exception (a failed request for groups) the caller goes on.

Missing for the full claim: a failed request for slots (`C126_failed_slots`, `C126_failed_constructor`), a throwing constructor of an element
(`C126_throwing_element`), and the calls that `Safe` excludes, which are undefined or lose elements in the model without the log too. -/
theorem C126_lifetimes_partial (hE : E.Lawful) {rv : Nat → Nat} (hrv : ∀ x, 81920 ≤ rv x ∧ rv x ≤ 327680) {mem : Mem} {n : Nat} {s : LT K V}
    (hc : makeE mem n = .ok s ()) {cs : List (Mem × Call K V)} (hg : Guarded E sec false rv cs s.t []) :
    ∃ as s' m', runE md E sec rv cs s = .ok (as, s') ∧ make mem n = .ok s.t () ∧ run E sec false rv cs s.t = .ok (as, s'.t) ∧
      Spec.AcceptsAll E.eq [] (cs.map (·.2)) as m' ∧ s'.t.size = m'.length ∧ InOrder s' := by
  obtain ⟨h1, h2⟩ := makeE_ok hc
  obtain ⟨k1, k2, _⟩ := make_ok (E := E) (sec := sec) h1
  obtain ⟨as, s', m', g1, g2, g3, g4, g5, g6⟩ := runE_ok (md := md) hE hrv cs s [] k1 h2 (by rw [k2]) hg
  exact ⟨as, s', m', g1, h1, g2, g6, by rw [g3.size, g5.length_eq], g4.inOrder g3.toCore⟩

theorem guarded_of_plain (hE : E.Lawful) {big : Bool} {rv : Nat → Nat} (hrv : ∀ x, 81920 ≤ rv x ∧ rv x ≤ 327680) : ∀ (cs : List (Mem × Call K V))
    (t : Map K V) (m : Spec.Map K V), PState E sec big t → (entries t).Perm m → PlainAll E sec big m cs → Guarded E sec false rv cs t m := by
  intro cs
  induction cs with
  | nil => intro t m _ _ _; trivial
  | cons p cs ih =>
    intro t m h1 h2 h3
    obtain ⟨mem, c⟩ := p
    obtain ⟨h4, h5, h6, h7⟩ := h3
    obtain ⟨hs, hcalm⟩ := h5.safe hE (rv := rv) h1 h2
    have hstep := exec_ok hE (triv := false) h1.toReach h2 hrv h4 hs
    have hkept := exec_kept hE (triv := false) (rv := rv) h1 h2 h4 h5
    refine ⟨h4, hs, ?_, ?_⟩
    · intro t' a he
      rw [he] at hstep hkept
      exact ih t' _ ⟨hstep.1, hkept.1, hkept.2⟩ hstep.2.2 h6
    · intro t' he
      rw [he] at hstep hkept
      exact ⟨hcalm, ih t' m ⟨hstep.2.2 hcalm, hkept.1, hkept.2⟩ hstep.2.1 (h7 hstep.1)⟩

/-- C126 with conditions on the calls only (those of C79). -/
theorem C126_histories_partial (hE : E.Lawful) {rv : Nat → Nat} (hrv : ∀ x, 81920 ≤ rv x ∧ rv x ≤ 327680) {mem : Mem} {n : Nat}
    {s : LT K V} (hc : makeE mem n = .ok s ()) (big : Bool) (hb : big = true → 8 < n) {cs : List (Mem × Call K V)}
    (hp : PlainAll E sec big [] cs) :
    ∃ as s' m', runE md E sec rv cs s = .ok (as, s') ∧ Spec.AcceptsAll E.eq [] (cs.map (·.2)) as m' ∧ s'.t.size = m'.length ∧ InOrder s' := by
  obtain ⟨h1, _⟩ := makeE_ok hc
  obtain ⟨k1, k2⟩ := make_state (E := E) (sec := sec) h1 big hb
  obtain ⟨as, s', m', g1, _, _, g4, g5, g6⟩ := C126_lifetimes_partial (md := md) hE hrv hc (guarded_of_plain hE hrv cs s.t [] k1 (by rw [k2]) hp)
  exact ⟨as, s', m', g1, g4, g5, g6⟩

/-! ### Violations -/

/-- A growth that obtains the groups and not the slots (R16:2350-2367): the old groups are lost; the elements, if any, are never
destroyed, as the new control words are all empty, but their slots are given back. -/
theorem C126_failed_slots {s : LT K V} (hf : Fine s) (hw : Rob16.Weak s.t) (hc : cap s.t ≤ 2 ^ 47) :
    ∃ s', growE md E sec .noSlots s = .throw s' ∧ s'.gblk ≠ s.gblk ∧
      (∃ h', Heap.run s'.log Heap.empty = some h' ∧ (s.gblk, s.t.gmask + 2) ∈ h'.blocks ∧ h'.live.length = (entries s.t).length) ∧
      (entries s.t ≠ [] → Heap.run (destroyE s').log Heap.empty = none) ∧
      (entries s.t = [] → Heap.run (destroyE s').log Heap.empty = some ⟨[(s.gblk, s.t.gmask + 2)], []⟩) := by
  obtain ⟨j, h1, h2, h3⟩ := hw.pow
  have hpow : cap s.t * 2 % W = 2 ^ (j + 1) := by
    rw [Nat.mod_eq_of_lt (by unfold W; omega), Nat.pow_succ, h3]
  have hcalc : calcCapacity (cap s.t * 2 % W) = .ok (2 ^ (j + 1)) := by
    rw [hpow, calcCapacity_eq]
    exact Robin.calcCapacity_pow (by omega)
  have hlim : ¬ (Mem.noSlots = Mem.noGroups ∨ memLimit < 2 ^ (j + 1)) := by
    rw [Nat.pow_succ, ← h3]
    unfold memLimit
    simp only [reduceCtorEq, false_or]
    omega
  obtain ⟨h, hl⟩ := hf
  have hb1 := hl.blk_lt
  have hb2 := hl.gblk_lt
  have hlen := hl.length hw
  have hrun : Heap.run (s.log ++ [.alloc s.next ((2 ^ (j + 1) + 15) / 16 - 1 + 2)]) Heap.empty =
      some { h with blocks := (s.next, (2 ^ (j + 1) + 15) / 16 - 1 + 2) :: h.blocks } := by
    rw [Life.run_append, hl.run]
    simp only [Option.bind_some, Heap.run]
    rw [step_alloc (by intro x hx; have := hl.fresh x hx; omega)]
    rfl
  have hcapw : cap s.t < 2 ^ (j + 1) := by rw [Nat.pow_succ, ← h3]; have := hw.cap_ge; omega
  have hnone : ∀ t' : Map K V, t'.mask = s.t.mask → t'.ctrl = newCtrl (2 ^ (j + 1)) → destroyEv t' s.blk = [] := by
    intro t' hm hct
    unfold destroyEv
    rw [List.map_eq_nil_iff, List.filter_eq_nil_iff]
    intro i hi
    have hi : i < cap s.t := by
      have := List.mem_range.mp hi
      unfold cap at this ⊢
      rwa [hm] at this
    have hemp : (newCtrl (2 ^ (j + 1)) i).dist = 255 := by
      unfold newCtrl
      rw [if_neg (by rintro ⟨h5, h6 | h6⟩ <;> omega)]
    unfold used
    rw [hct, decide_eq_true_eq, hemp]
    decide
  refine ⟨emit [.alloc s.next ((2 ^ (j + 1) + 15) / 16 - 1 + 2)] { s with
      t := { s.t with ctrl := newCtrl (2 ^ (j + 1)), clen := ((2 ^ (j + 1) + 15) / 16 - 1 + 2) * 16, gmask := (2 ^ (j + 1) + 15) / 16 - 1 }
      gblk := s.next
      next := s.next + 2 }, ?_, ?_, ⟨_, hrun, ?_, hlen⟩, ?_, ?_⟩
  · unfold growE rehashImplE
    rw [hcalc]
    simp only [Bool.true_or, if_true]
    unfold createE createGroup
    simp only [if_neg hlim, if_true]
  · show s.next ≠ s.gblk
    omega
  · rw [hl.blocks]
    simp
  · intro hsz
    unfold destroyE
    show Heap.run (s.log ++ [.alloc s.next ((2 ^ (j + 1) + 15) / 16 - 1 + 2)] ++
      (destroyEv { s.t with ctrl := newCtrl (2 ^ (j + 1)), clen := _, gmask := (2 ^ (j + 1) + 15) / 16 - 1 } s.blk ++ freeEv _ s.blk _)) _ = _
    rw [Life.run_append, hrun, hnone { s.t with ctrl := newCtrl (2 ^ (j + 1)), clen := _, gmask := (2 ^ (j + 1) + 15) / 16 - 1 } rfl rfl]
    simp only [Option.bind_some, List.nil_append, freeEv, Heap.run, Heap.step]
    rw [if_neg]
    · rfl
    · intro hq
      rw [Bool.and_eq_true, List.all_eq_true] at hq
      cases hv : h.live with
      | nil => rw [hv] at hlen; exact hsz (List.length_eq_zero_iff.mp hlen.symm)
      | cons o l =>
        have ho : o ∈ h.live := by rw [hv]; simp
        have h7 := hq.2 o ho
        rw [((hl.holds.mem o.1 o.2).mp ho).1] at h7
        simp at h7
  · intro hsz
    unfold destroyE
    show Heap.run (s.log ++ [.alloc s.next ((2 ^ (j + 1) + 15) / 16 - 1 + 2)] ++
      (destroyEv { s.t with ctrl := newCtrl (2 ^ (j + 1)), clen := _, gmask := (2 ^ (j + 1) + 15) / 16 - 1 } s.blk ++
        [.free s.blk (cap s.t), .free s.next ((2 ^ (j + 1) + 15) / 16 - 1 + 2)])) _ = _
    have hv : h.live = [] := List.length_eq_zero_iff.mp (by rw [hlen, hsz]; rfl)
    rw [Life.run_append, hrun, hnone { s.t with ctrl := newCtrl (2 ^ (j + 1)), clen := _, gmask := (2 ^ (j + 1) + 15) / 16 - 1 } rfl rfl]
    simp only [Option.bind_some, List.nil_append, Heap.run]
    rw [step_free (by rw [hl.blocks]; simp) (by rw [hv]; simp)]
    simp only [Option.bind_some]
    rw [hl.blocks, erase_skip (by simp only; omega), erase_hit]
    rw [step_free (by simp) (by simp only [hv]; simp)]
    simp only [Option.bind_some]
    rw [erase_hit, hv]

/-- A constructor of the map that obtains the groups and not the slots (R16:1305-1317, 2350-2367): the object never exists, so its
destructor does not run, and the groups are lost. -/
theorem C126_failed_constructor {n : Nat} (hn : n ≤ 2 ^ 48) : ∃ s : LT K V, makeE .noSlots n = .throw s ∧
    ∃ h, Heap.run s.log Heap.empty = some h ∧ h.blocks ≠ [] := by
  have hcc : ∃ c, calcCapacity n = .ok c ∧ c ≤ 2 ^ 48 := by
    cases hc : calcCapacity n with
    | ub =>
      rw [calcCapacity_eq] at hc
      have := Robin.calcCapacity_ub hc
      omega
    | diverge => exact absurd hc (Robin.calcCapacity_diverge n)
    | ok c =>
      refine ⟨c, rfl, ?_⟩
      rw [calcCapacity_eq] at hc
      obtain ⟨j, h1, rfl, h3, h4⟩ := Robin.calcCapacity_ok hc
      rcases h4 with h4 | h4
      · omega
      · have : j < 49 := by
          by_contra hcc
          have := Robin.pow_two_le (a := 49) (b := j) (by omega)
          omega
        exact Robin.pow_two_le (a := j) (b := 48) (by omega)
  obtain ⟨c, h1, h2⟩ := hcc
  have hlim : ¬ (Mem.noSlots = Mem.noGroups ∨ memLimit < c) := by
    unfold memLimit
    simp only [reduceCtorEq, false_or]
    omega
  refine ⟨emit [.alloc 1 ((c + 15) / 16 - 1 + 2)] {
      t := { blank with ctrl := newCtrl c, clen := ((c + 15) / 16 - 1 + 2) * 16, gmask := (c + 15) / 16 - 1 }
      blk := 0
      gblk := 1
      next := 3
      log := [] }, ?_, ?_⟩
  · unfold makeE
    rw [h1]
    simp only
    unfold createE createGroup
    simp only [if_neg hlim, if_true]
  · exact ⟨⟨[(1, (c + 15) / 16 - 1 + 2)], []⟩, rfl, by simp⟩

/-- The constructor of a new element throws (R16:3065-3072 and the other overloads): the control word has been written before, and the
destructor of the map destroys an object that was never constructed. -/
theorem C126_throwing_element (hE : E.Lawful) {s : LT K V} (hf : Fine s) (hL : Live E sec s.t) (update : Bool) {mem : Mem} (hmem : mem ≠ .noSlots)
    {k : K} {v : V} (hk : TagOk E sec s.t k) (hS : Spread E 129 (cap s.t) ((k, v) :: entries s.t))
    {t1 : Map K V} {i d : Nat} (hp : prepare E sec mem k 64 s.t = .ok t1 (i, some d)) (f : Nat) :
    ∃ s', emplaceE md E sec update mem false k v (f + 1) s = .throw s' ∧ (∃ h, Heap.run s'.log Heap.empty = some h) ∧
      Heap.run (destroyE s').log Heap.empty = none := by
  obtain ⟨j, h1, h2, hj⟩ := hL.pow
  have hS0 : Spread E 254 (cap s.t) (entries s.t) := (hS.mono (by omega)).sub (List.sublist_cons_self _ _).subperm
  have hsp := prepare_spec hE mem k 64 j s.t hL hk hS0 hj (by omega)
  have hsm := prepareE_agree (md := md) hE hmem k 64 j s hL hS0 hf hj
  rw [hp] at hsp hsm
  cases hq : prepareE md E sec mem k 64 s with
  | throw s1 => rw [hq] at hsm; exact hsm.elim
  | ub => rw [hq] at hsm; exact hsm.elim
  | diverge => rw [hq] at hsm; exact hsm.elim
  | ok s1 r =>
    rw [hq] at hsm
    obtain ⟨rfl, rfl, h, hl⟩ := hsm
    obtain ⟨g1, g2, g3, g4, g5, g6, g7⟩ := hsp
    have hS' : Spread E 129 (cap s1.t) ((k, v) :: entries s1.t) := (g7.spread _ _ hS).perm (g6.cons _)
    subst g4
    obtain ⟨s2, bb, l, h', k1, k2, k3, k4⟩ := makeRoomE_both (md := md) (e := (k, v)) false g2.toTab g2.exists_empty g3 (hS'.mono (by omega)) (hp := h)
      (Q := fun _ _ => False) (by rw [hl.blocks]; simp) hl.fresh (fun _ _ hq => hq.elim) (hl.holds.congr fun b i => by simp)
    have hbb : bb = false := by
      cases bb with
      | false => rfl
      | true => exact absurd hS' (k4.full rfl).2.1
    subst hbb
    have hi := g2.pos_lt (E := E) k d
    have hrun2 : Heap.run s2.log Heap.empty = some h' := by
      rw [k3.log, Life.run_append, hl.run]; exact k3.run
    refine ⟨{ s2 with t := { s2.t with slot := upd s2.t.slot (pos E s1.t k d) none } }, ?_, ⟨h', hrun2⟩, ?_⟩
    · unfold emplaceE
      rw [hq]
      simp only [Out.bind_ok]
      rw [k1]
      simp only [liftE, Bool.false_eq_true, if_false]
    · unfold destroyE
      show Heap.run (s2.log ++ (destroyEv _ s2.blk ++ _)) _ = _
      rw [Life.run_append, hrun2]
      simp only [Option.bind_some]
      rw [Life.run_append]
      unfold destroyEv
      rw [Life.run_dtors_none s2.blk _ h' k3.holds.nodup ⟨pos E s1.t k d, ?_, ?_⟩]
      · rfl
      · rw [List.mem_filter, List.mem_range]
        refine ⟨by show _ < cap s2.t; rw [k4.same.cap]; exact hi, ?_⟩
        have hT := (k4.done rfl).1
        have hb := hT.bound (pos E s1.t k d) (by show _ < cap s2.t; rw [k4.same.cap]; exact hi)
        have hu := k3.used
        unfold used
        rw [decide_eq_true_eq]
        show (s2.t.ctrl (pos E s1.t k d)).dist < 255
        have hb' : (s2.t.ctrl (pos E s1.t k d)).dist = 255 ∨ (s2.t.ctrl (pos E s1.t k d)).dist < 254 := hb
        have hu' : (s2.t.ctrl (pos E s1.t k d)).dist ≠ 255 := hu
        omega
      · rw [k3.holds.mem, k3.blk]
        rintro (⟨_, hq | hq⟩ | hq)
        · cases hq
        · exact hq rfl
        · exact hq

/-! ### Cases -/

open Verif.Robin (hashEnv hashEnv_lawful)

/-- The start. -/
def startE : LT Nat Nat :=
  { t := start, blk := 2, gblk := 1, next := 3, log := [.alloc 1 2, .alloc 2 4] }

theorem makeE_start : makeE .ok 4 = .ok startE () := rfl

/-- Displacements, growth, backward shifts, `clear(true)`, rehashing. -/
def tour : List (Call Nat Nat) :=
  [.insert 3 1, .insert 64 2, .insert 1 3, .insert 2 4, .reserve 20, .insert 128 5, .assign 64 7, .erase 64, .index 9 0, .at 9, .maxLoad 40000, .rehash 30,
    .shrink false, .count 9, .clear true, .insert 7 1, .insert 10 1, .erase 10, .clear false, .iterate]

/-- A history for `C126_lifetimes_partial`. -/
example : guardedB false (fun _ => 131072) tour startE.t [] = true := by decide +kernel

example (md : Mode) : ∃ as s, runE md (hashEnv id) odd (fun _ => 131072) (tour.map fun c => (Mem.ok, c)) startE = .ok (as, s) ∧ InOrder s := by
  obtain ⟨as, s, _, h1, _, _, _, _, h2⟩ := C126_lifetimes_partial (md := md) (E := hashEnv id) (sec := odd) (hashEnv_lawful id) (rv := fun _ => 131072)
    (fun _ => by omega) makeE_start (guardedB_sound tour startE.t [] (by decide +kernel))
  exact ⟨as, s, h1, h2⟩

/-- Elements are displaced and exchanged in that history: two buffers are obtained, and objects are made in both. -/
example : (match runE .tmp (hashEnv id) odd (fun _ => 131072) (tour.map fun c => (Mem.ok, c)) startE with
    | .ok (_, s) => (List.range s.next).any fun b => s.log.contains (.alloc b 1) && s.log.contains (.ctor b 0) && s.log.contains (.alloc (b + 1) 1) &&
      s.log.contains (.ctor (b + 1) 0)
    | _ => false) = true := by decide +kernel

/-- A history for `C126_histories_partial`. -/
example : ∃ as s m, runE .tmp (hashEnv id) odd (fun _ => 131072)
      ([.insert 0 1, .insert 1 2, .assign 0 7, .erase 1, .reserve 100, .index 2 0, .rehash 5, .shrink false, .clear true, .insert 8 8, .iterate].map
        fun c => (Mem.ok, c)) startE = .ok (as, s) ∧
    Spec.AcceptsAll (hashEnv id).eq [] [.insert 0 1, .insert 1 2, .assign 0 7, .erase 1, .reserve 100, .index 2 0, .rehash 5, .shrink false, .clear true,
      .insert 8 8, .iterate] as m ∧ InOrder s := by
  obtain ⟨as, s, m, h1, h2, _, h4⟩ := C126_histories_partial (md := .tmp) (E := hashEnv id) (sec := odd) (hashEnv_lawful id) (rv := fun _ => 131072)
    (fun _ => by omega) makeE_start false (fun h => by cases h) (plainB_sound
      [.insert 0 1, .insert 1 2, .assign 0 7, .erase 1, .reserve 100, .index 2 0, .rehash 5, .shrink false, .clear true, .insert 8 8, .iterate] [] (by decide +kernel))
  exact ⟨as, s, m, h1, h2, h4⟩

/-- The state after a history. -/
theorem fine_play {cs : List (Call Nat Nat)} (hf : guardedB false (fun _ => 131072) cs startE.t [] = true) {p : LT Nat Nat → Bool}
    (hp : (match runE .swap (hashEnv id) odd (fun _ => 131072) (cs.map fun c => (Mem.ok, c)) startE with
      | .ok (_, s) => p s
      | _ => false) = true) : ∃ s : LT Nat Nat, Reach (hashEnv id) odd s.t ∧ Fine s ∧ p s = true := by
  obtain ⟨h1, h2⟩ := makeE_ok makeE_start
  obtain ⟨k1, k2, _⟩ := make_ok (E := hashEnv id) (sec := odd) h1
  obtain ⟨as, s, m, g1, _, g3, g4, _⟩ := runE_ok (md := .swap) (hashEnv_lawful id) (rv := fun _ => 131072) (fun _ => by omega) (cs.map fun c => (Mem.ok, c)) startE []
    k1 h2 (by rw [k2]) (guardedB_sound cs startE.t [] hf)
  rw [g1] at hp
  exact ⟨s, g3, g4, hp⟩

/-- `C126_failed_slots` has instances, with elements and without. -/
example : (∃ s : LT Nat Nat, Reach (hashEnv id) odd s.t ∧ Fine s ∧ (decide (cap s.t = 8) && decide ((entries s.t).length = 3)) = true) ∧
    ∃ s : LT Nat Nat, Reach (hashEnv id) odd s.t ∧ Fine s ∧ (decide (cap s.t = 4) && (entries s.t).isEmpty) = true :=
  ⟨fine_play (cs := ins 3 1) (by decide +kernel) (by decide +kernel), fine_play (cs := []) (by decide +kernel) (by decide +kernel)⟩

/-- `C126_throwing_element` has instances: a new key, with a growth before. -/
example : ∃ s : LT Nat Nat, Reach (hashEnv id) odd s.t ∧ Fine s ∧ ((match prepare (hashEnv id) odd .ok 7 64 s.t with
    | .ok t (i, some _) => decide (cap t = 8) && decide (i = 7)
    | _ => false) && decide ((entries s.t).length ≤ 128)) = true :=
  fine_play (cs := ins 2 1) (by decide +kernel) (by decide +kernel)

end Verif.Rob16.Track
