/-
Robin hood insertion and backward shift with the indirect layout: step by step the same as with the direct layout, where
the carried element stands in the slot of the insertion place.
-/
import Verif.RobIndInv

namespace Verif.RobInd
open Spec (Distinct)
open Robin (hm lookups tailCtrl)

variable {K V : Type} {E : Env K}

theorem absC_upd {n c i : Nat} (w : Nat → Ctrl) (x : Ctrl) (h : i < n) : absC n c (upd w i x) = upd (absC n c w) i ⟨x.dist, 0⟩ := by
  funext p
  by_cases hp : p = i
  · subst hp; rw [upd_self, absC_lt h, upd_self]
  · rw [upd_other _ _ hp]
    unfold absC
    rw [upd_other _ _ hp]

theorem absS_upd {n i : Nat} (s : Nat → Option (K × V)) (w : Nat → Ctrl) (x : Ctrl) (h : i < n) :
    absS n s (upd w i x) = upd (absS n s w) i (if 0 ≤ x.dist then s x.idx else none) := by
  funext p
  by_cases hp : p = i
  · subst hp
    rw [upd_self]
    unfold absS
    rw [upd_self]
    by_cases hd : 0 ≤ x.dist
    · rw [if_pos ⟨h, hd⟩, if_pos hd]
    · rw [if_neg (fun hx => hd hx.2), if_neg hd]
  · rw [upd_other _ _ hp]
    unfold absS
    rw [upd_other _ _ hp]

/-- A control word that is empty or refers to an element of the first `m` slots and records its hash. -/
def Word (E : Env K) (s : Nat → Option (K × V)) (m : Nat) (x : Ctrl) : Prop :=
  x = Ctrl.empty ∨ (0 ≤ x.dist ∧ x.dist ≤ 127 ∧ x.idx < m ∧ ∃ e, s x.idx = some e ∧ x.hash = ctrlHash E e.1)

theorem Good.word {t : Map K V} {c p : Nat} (h : Good E t c) (hp : p < t.slen) : Word E t.slot t.size (t.ctrl p) := by
  by_cases hd : 0 ≤ (t.ctrl p).dist
  · obtain ⟨e, h1, _, h3, _⟩ := h.used hp hd
    exact Or.inr ⟨hd, (h.dist_ge hp).2, h.idx p hp hd, e, h1, h3⟩
  · exact Or.inl (h.unused p (by have := h.toShape.clen_ge; omega) (by omega))

/-- The table with the direct layout while `rich` is carried. -/
def carried (c : Nat) (t : Map K V) (p0 : Nat) (w : Nat → Ctrl) (o : Option (K × V)) : Robin.Map K V :=
  { abs c t with ctrl := absC t.slen c w, slot := upd (absS t.slen t.slot w) p0 o }

theorem placeLoop_sim {c : Nat} {t : Map K V} (h : Shape t c) {p0 : Nat} (rh : Bool) : ∀ (f : Nat) (w : Nat → Ctrl) (i : Nat) (rich : Ctrl),
    f = t.slen - i → p0 < i → i ≤ t.slen → (∀ p, p < t.slen → p ≠ p0 → Word E t.slot t.size (w p)) →
    Word E t.slot t.size rich → 0 ≤ rich.dist →
    match placeLoop true rh p0 f w i rich with
    | .ok (w', true) =>
        Robin.placeLoop false true rh p0 f (carried c t p0 w (t.slot rich.idx)) i ⟨rich.dist, 0⟩ = .ok (carried c t p0 w' none, true) ∧
        w' p0 = w p0 ∧ (∀ p, p < t.slen → p ≠ p0 → Word E t.slot t.size (w' p)) ∧ ∀ p, t.slen ≤ p → w' p = w p
    | .ok (_, false) =>
        Robin.placeLoop false true rh p0 f (carried c t p0 w (t.slot rich.idx)) i ⟨rich.dist, 0⟩ = .ub ∨
        ∃ t', Robin.placeLoop false true rh p0 f (carried c t p0 w (t.slot rich.idx)) i ⟨rich.dist, 0⟩ = .ok (t', false)
    | .diverge => False
    | .ub => Robin.placeLoop false true rh p0 f (carried c t p0 w (t.slot rich.idx)) i ⟨rich.dist, 0⟩ = .ub := by
  intro f
  induction f with
  | zero =>
    intro w i rich hf hlt hle hw hr hrd
    rcases hr with hr | ⟨_, _, _, e, he, _⟩
    · rw [hr] at hrd; simp [Ctrl.empty] at hrd
    · unfold placeLoop Robin.placeLoop Robin.needGrow
      right
      have : (carried c t p0 w (t.slot rich.idx)).slot p0 = some e := by
        show upd _ p0 _ p0 = _
        rw [upd_self]; exact he
      rw [this]
      exact ⟨_, rfl⟩
  | succ f ih =>
    intro w i rich hf hlt hle hw hr hrd
    have hi : i < t.slen := by omega
    obtain ⟨hr1, hr2, hr3, er, her, hrh⟩ : 0 ≤ rich.dist ∧ rich.dist ≤ 127 ∧ rich.idx < t.size ∧ ∃ e, t.slot rich.idx = some e ∧ rich.hash = ctrlHash E e.1 := by
      rcases hr with hr | hr
      · rw [hr] at hrd; simp [Ctrl.empty] at hrd
      · exact hr
    have hci : (carried c t p0 w (t.slot rich.idx)).ctrl i = ⟨(w i).dist, 0⟩ := absC_lt hi
    have hs0 : (carried c t p0 w (t.slot rich.idx)).slot p0 = some er := by
      show upd _ p0 _ p0 = _
      rw [upd_self]; exact her
    have hsi : (carried c t p0 w (t.slot rich.idx)).slot i = absS t.slen t.slot w i := upd_other _ _ (by omega)
    have hmd : ∀ x : Robin.Ctrl, decide (Robin.maxDist (carried c t p0 w (t.slot rich.idx)) ≤ x.uval false) = false := fun x =>
      Robin.Shape.no_max (t := carried c t p0 w (t.slot rich.idx)) (c := c) ⟨h.alloc, h.pow, h.mask, h.look, h.slen, rfl, rfl⟩ x
    unfold placeLoop Robin.placeLoop
    rw [hci]
    rcases hw i hi (by omega) with hwi | ⟨hwd, hwd2, hwx, ei, hei, hwh⟩
    · -- empty
      rw [if_pos (show (w i).isEmpty = true by rw [hwi]; rfl),
        if_pos (show (⟨(w i).dist, 0⟩ : Robin.Ctrl).isEmpty = true by rw [hwi]; rfl), hs0]
      refine ⟨?_, upd_other _ _ (by omega), ?_, fun p hp => upd_other _ _ (by omega)⟩
      · simp only [carried]
        rw [absC_upd _ _ hi, absS_upd _ _ _ hi, if_pos hr1, her]
        congr 3
        funext p
        by_cases hp : p = p0
        · subst hp; rw [upd_self, upd_self]
        · rw [upd_other _ _ hp, upd_other _ _ hp]
          by_cases hpi : p = i
          · subst hpi; rw [upd_self, upd_self]
          · rw [upd_other _ _ hpi, upd_other _ _ hpi, upd_other _ _ hp]
      · intro p hp hpe
        by_cases hpi : p = i
        · subst hpi; rw [upd_self]; exact Or.inr ⟨hr1, hr2, hr3, er, her, hrh⟩
        · rw [upd_other _ _ hpi]; exact hw p hp hpe
    · rw [if_neg (show ¬ (w i).isEmpty = true by unfold Ctrl.isEmpty; simp; omega),
        if_neg (show ¬ (⟨(w i).dist, 0⟩ : Robin.Ctrl).isEmpty = true by unfold Robin.Ctrl.isEmpty; simp; omega)]
      by_cases hless : (w i).dist < rich.dist
      · have hinc : (w i).inc = ⟨(w i).dist + 1, (w i).hash, (w i).idx⟩ := by
          unfold Ctrl.inc
          rw [Robin.wrap8_id (by omega) (by omega)]
        have hinc' : Robin.Ctrl.inc ⟨(w i).dist, 0⟩ = ⟨(w i).dist + 1, 0⟩ := by
          unfold Robin.Ctrl.inc
          rw [Robin.wrap8_id (by simp only; omega) (by simp only; omega)]
        rw [if_pos hless]
        simp only [hless, decide_true, if_true, hmd, Bool.and_false, Bool.false_eq_true, if_false]
        have h127 : (true && rh && (w i).dist == 127) = false := by
          have : ((w i).dist == 127) = false := by simp; omega
          rw [this, Bool.and_false]
        have hneg : (!rh && decide ((w i).inc.dist < 0)) = false := by
          rw [hinc]
          have : decide ((⟨(w i).dist + 1, (w i).hash, (w i).idx⟩ : Ctrl).dist < 0) = false := decide_eq_false (by simp only; omega)
          rw [this, Bool.and_false]
        rw [h127, hneg]
        simp only [Bool.false_eq_true, if_false]
        have hst : ({ carried c t p0 w (t.slot rich.idx) with
            ctrl := upd (carried c t p0 w (t.slot rich.idx)).ctrl i ⟨rich.dist, 0⟩
            slot := upd (upd (carried c t p0 w (t.slot rich.idx)).slot i ((carried c t p0 w (t.slot rich.idx)).slot p0)) p0
              ((carried c t p0 w (t.slot rich.idx)).slot i) } : Robin.Map K V) = carried c t p0 (upd w i rich) (t.slot (w i).idx) := by
          rw [hs0, hsi, absS_used hi hwd]
          simp only [carried]
          rw [absC_upd _ _ hi, absS_upd _ _ _ hi, if_pos hr1, her]
          congr 1
          funext p
          by_cases hp : p = p0
          · subst hp; rw [upd_self, upd_self]
          · rw [upd_other _ _ hp, upd_other _ _ hp]
            by_cases hpi : p = i
            · subst hpi; rw [upd_self, upd_self]
            · rw [upd_other _ _ hpi, upd_other _ _ hpi, upd_other _ _ hp]
        rw [hst, hinc, hinc']
        have hstep := ih (upd w i rich) (i + 1) ⟨(w i).dist + 1, (w i).hash, (w i).idx⟩ (by omega) (by omega) (by omega)
          (by
            intro p hp hpe
            by_cases hpi : p = i
            · subst hpi; rw [upd_self]; exact Or.inr ⟨hr1, hr2, hr3, er, her, hrh⟩
            · rw [upd_other _ _ hpi]; exact hw p hp hpe)
          (Or.inr ⟨by simp only; omega, by simp only; omega, hwx, ei, hei, hwh⟩) (by simp only; omega)
        cases hpl : placeLoop true rh p0 f (upd w i rich) (i + 1) ⟨(w i).dist + 1, (w i).hash, (w i).idx⟩ with
        | diverge => rw [hpl] at hstep; exact hstep
        | ub => rw [hpl] at hstep; exact hstep
        | ok r =>
          obtain ⟨w', b⟩ := r
          rw [hpl] at hstep
          cases b with
          | false => exact hstep
          | true =>
            obtain ⟨g1, g2, g3, g4⟩ := hstep
            refine ⟨g1, by rw [g2, upd_other _ _ (by omega)], g3, ?_⟩
            intro p hp
            rw [g4 p hp, upd_other _ _ (by omega)]
      · rw [if_neg hless]
        simp only [hless, decide_false, Bool.false_eq_true, if_false, Bool.true_and, hmd, Bool.and_false]
        by_cases h127 : rich.dist = 127
        · have hd : ((⟨rich.dist, 0⟩ : Robin.Ctrl).dist == 127) = true := by simp [h127]
          have hneg : decide (rich.inc.dist < 0) = true := by
            unfold Ctrl.inc Robin.Ctrl.wrap8
            rw [h127]
            exact decide_eq_true (show ((127 + 1 + 128) % 256 - 128 : Int) < 0 by decide)
          simp only [hd, hneg, if_true, Bool.and_true]
          cases rh with
          | true => simp
          | false => simp
        · have hd : ((⟨rich.dist, 0⟩ : Robin.Ctrl).dist == 127) = false := by simp [h127]
          have hinc : rich.inc = ⟨rich.dist + 1, rich.hash, rich.idx⟩ := by
            unfold Ctrl.inc
            rw [Robin.wrap8_id (by omega) (by omega)]
          have hinc' : Robin.Ctrl.inc ⟨rich.dist, 0⟩ = ⟨rich.dist + 1, 0⟩ := by
            unfold Robin.Ctrl.inc
            rw [Robin.wrap8_id (by simp only; omega) (by simp only; omega)]
          have hneg : decide (rich.inc.dist < 0) = false := by
            rw [hinc]; exact decide_eq_false (by simp only; omega)
          simp only [hd, hneg, Bool.and_false, Bool.false_eq_true, if_false]
          rw [hinc, hinc']
          exact ih w (i + 1) ⟨rich.dist + 1, rich.hash, rich.idx⟩ (by omega) (by omega) (by omega) hw
            (Or.inr ⟨by simp only; omega, by simp only; omega, hr3, er, her, hrh⟩) (by simp only; omega)

/-- Room has been made at index `i` for the word `x`. -/
structure Made (E : Env K) (c : Nat) (t t' : Map K V) (i : Nat) (x : Ctrl) : Prop where
  ctrl : ∃ w, t' = { t with ctrl := w }
  made : Robin.Made E c (abs c t) (abs c t') i ⟨x.dist, 0⟩
  at_i : t'.ctrl i = x
  words : ∀ p, p < t.slen → p ≠ i → Word E t.slot t.size (t'.ctrl p)
  tail : ∀ p, t.slen ≤ p → t'.ctrl p = t.ctrl p

/-- The place found by a probe for an absent key, in a good map. -/
theorem place_spec (hE : E.Lawful) {c : Nat} {t : Map K V} (h : Good E t c) {h0 i : Nat} {d : Ctrl}
    (hs : Robin.Stop (abs c t) h0 i ⟨d.dist, 0⟩) (rh : Bool) (hash : Nat) :
    match place true rh hash t i d with
    | .ok (t', true) => Made E c t t' i ⟨d.dist, hash, t.size⟩ ∧ i < t.slen ∧ t.size < 2 ^ 32
    | .ok (t', false) => (∃ w, t' = { t with ctrl := w }) ∧ Robin.Stuck (abs c t) h0
    | .diverge => False
    | .ub => Robin.Stuck (abs c t) h0 ∨ 2 ^ 32 ≤ t.size := by
  have hsl : (abs c t).slen = t.slen := rfl
  unfold place
  rw [if_pos h.alloc]
  by_cases hi : i < t.slen
  · by_cases hbig : 2 ^ 32 ≤ t.size
    · rw [if_pos (by simp; omega)]; exact Or.inr hbig
    · rw [if_neg (by rw [h.toShape.maxCap]; simp; omega)]
      have hmod : t.size % 2 ^ 32 = t.size := Nat.mod_eq_of_lt (by omega)
      rw [hmod]
      have hRi : (abs c t).ctrl i = ⟨(t.ctrl i).dist, 0⟩ := absC_lt hi
      have hx : 0 ≤ d.dist := by
        have := hs.d_eq
        injection this with h1 _
        have := hs.ge
        omega
      have hpl := Robin.place_spec hE h.abs hs hi rh
      have hnone : t.slot t.size = none := h.none_ _ (Nat.le_refl _)
      simp only
      by_cases hemp : (t.ctrl i).isEmpty = true
      · rw [if_pos hemp]
        have hR : Robin.place false true rh (abs c t) i ⟨d.dist, 0⟩ = .ok ({ abs c t with ctrl := upd (abs c t).ctrl i ⟨d.dist, 0⟩ }, true) := by
          unfold Robin.place
          rw [if_pos (show (abs c t).alloc = true from h.alloc), if_pos (by rw [hRi]; exact hemp)]
        rw [hR] at hpl
        refine ⟨⟨⟨_, rfl⟩, ?_, upd_self _ _ _, ?_, ?_⟩, hi, by omega⟩
        · have hst : (abs c { t with ctrl := upd t.ctrl i ⟨d.dist, hash, t.size⟩ } : Robin.Map K V) =
              { abs c t with ctrl := upd (abs c t).ctrl i ⟨d.dist, 0⟩ } := by
            simp only [abs]
            rw [absC_upd _ _ hi, absS_upd _ _ _ hi, if_pos hx, hnone]
            congr 1
            funext p
            by_cases hp : p = i
            · subst hp
              rw [upd_self]
              have : (t.ctrl p).dist = -1 := by simpa [Ctrl.isEmpty] using hemp
              rw [absS_unused (by omega)]
            · rw [upd_other _ _ hp]
          rw [hst]; exact hpl
        · intro p hp hpe
          show Word E t.slot t.size (upd t.ctrl i _ p)
          rw [upd_other _ _ hpe]; exact h.word hp
        · intro p hp
          exact upd_other _ _ (by omega)
      · rw [if_neg hemp]
        have hd : 0 ≤ (t.ctrl i).dist := by
          have h1 : (t.ctrl i).dist ≠ -1 := by simpa [Ctrl.isEmpty] using hemp
          have := h.dist_ge hi
          omega
        have hless : (t.ctrl i).dist < d.dist := by
          have := hs.less
          rw [hRi] at this
          exact this
        have hle : d.dist ≤ 127 := by
          have h1 := hs.d_eq
          injection h1 with h1 _
          have := hs.le
          have := hs.ge
          omega
        have hinc : (t.ctrl i).inc = ⟨(t.ctrl i).dist + 1, (t.ctrl i).hash, (t.ctrl i).idx⟩ := by
          unfold Ctrl.inc
          rw [Robin.wrap8_id (by omega) (by omega)]
        have hinc' : ((abs c t).ctrl i).inc = ⟨(t.ctrl i).dist + 1, 0⟩ := by
          rw [hRi]
          unfold Robin.Ctrl.inc
          rw [Robin.wrap8_id (by simp only; omega) (by simp only; omega)]
        obtain ⟨e, he, _, heh, _⟩ := h.used hi hd
        have hst : ({ abs c t with ctrl := upd (abs c t).ctrl i ⟨d.dist, 0⟩ } : Robin.Map K V) =
            carried c t i (upd t.ctrl i ⟨d.dist, hash, t.size⟩) (t.slot (t.ctrl i).idx) := by
          simp only [carried, abs]
          rw [absC_upd _ _ hi, absS_upd _ _ _ hi]
          congr 1
          funext p
          by_cases hp : p = i
          · subst hp; rw [upd_self, absS_used hi hd]
          · rw [upd_other _ _ hp, upd_other _ _ hp]
        have hR : Robin.place false true rh (abs c t) i ⟨d.dist, 0⟩ = Robin.placeLoop false true rh i (t.slen - (i + 1))
            (carried c t i (upd t.ctrl i ⟨d.dist, hash, t.size⟩) (t.slot (t.ctrl i).idx)) (i + 1) ⟨(t.ctrl i).dist + 1, 0⟩ := by
          unfold Robin.place
          rw [if_pos (show (abs c t).alloc = true from h.alloc), if_neg (by rw [hRi]; exact hemp),
            Robin.insertToPlace_eq h.abs.toShape, hst, hinc']
          rfl
        rw [hR] at hpl
        have hsim := placeLoop_sim (E := E) h.toShape (p0 := i) rh (t.slen - (i + 1)) (upd t.ctrl i ⟨d.dist, hash, t.size⟩) (i + 1)
          ⟨(t.ctrl i).dist + 1, (t.ctrl i).hash, (t.ctrl i).idx⟩ rfl (by omega) (by omega)
          (by intro p hp hpe; rw [upd_other _ _ hpe]; exact h.word hp)
          (Or.inr ⟨by simp only; omega, by simp only; omega, h.idx i hi hd, e, he, heh⟩) (by simp only; omega)
        unfold insertToPlace
        rw [if_neg (by simp; omega), h.toShape.maxCap, hinc]
        cases hpi : placeLoop true rh i (t.slen - (i + 1)) (upd t.ctrl i ⟨d.dist, hash, t.size⟩) (i + 1)
            ⟨(t.ctrl i).dist + 1, (t.ctrl i).hash, (t.ctrl i).idx⟩ with
        | diverge => rw [hpi] at hsim; exact hsim
        | ub =>
          rw [hpi] at hsim
          rw [hsim] at hpl
          exact Or.inl (Or.inr ⟨i, _, hs, Or.inr ⟨hi, Or.inr hpl⟩⟩)
        | ok r =>
          obtain ⟨w', b⟩ := r
          rw [hpi] at hsim
          simp only [Res.bind_ok]
          cases b with
          | false =>
            refine ⟨⟨_, rfl⟩, ?_⟩
            rcases hsim with hsim | ⟨t', hsim⟩
            · rw [hsim] at hpl; exact Or.inr ⟨i, _, hs, Or.inr ⟨hi, Or.inr hpl⟩⟩
            · rw [hsim] at hpl; exact Or.inr ⟨i, _, hs, Or.inr ⟨hi, Or.inl hpl.2⟩⟩
          | true =>
            obtain ⟨g1, g2, g3, g4⟩ := hsim
            rw [g1] at hpl
            have hw : w' i = ⟨d.dist, hash, t.size⟩ := by rw [g2, upd_self]
            refine ⟨⟨⟨_, rfl⟩, ?_, hw, g3, ?_⟩, hi, by omega⟩
            · have hst2 : (abs c { t with ctrl := w' } : Robin.Map K V) = carried c t i w' none := by
                simp only [abs, carried]
                congr 1
                funext p
                by_cases hp : p = i
                · subst hp
                  rw [upd_self, absS_used hi (by rw [hw]; exact hx), hw]
                  exact hnone
                · rw [upd_other _ _ hp]
              rw [hst2]; exact hpl
            · intro p hp
              show w' p = _
              rw [g4 p hp, upd_other _ _ (by omega)]
  · rw [if_pos (by rw [h.toShape.maxCap]; simp; omega)]
    exact Or.inl (Or.inr ⟨i, _, hs, Or.inl (by rw [hsl]; omega)⟩)

/-- The new element has been added. -/
structure Added (E : Env K) (t t' : Map K V) (c : Nat) (e : K × V) : Prop where
  good : Good E t' c
  entries : entries t' = entries t ++ [e]
  size : t'.size = t.size + 1
  at_size : t'.slot t.size = some e
  mlf : t'.mlf = t.mlf
  rev : t'.rev = t.rev
  thr : t'.thr = t.thr
  last : t'.last = t.last

theorem range_filterMap_push {α : Type} {n N : Nat} (s : Nat → Option α) (h : n < N) (hn : ∀ j, n ≤ j → s j = none) (a : α) :
    (List.range N).filterMap (upd s n (some a)) = (List.range N).filterMap s ++ [a] := by
  have h1 : (List.range N).filterMap (upd s n (some a)) = (List.range (n + 1)).filterMap (upd s n (some a)) :=
    Robin.filterMap_range_extend _ h (fun p hp _ => by rw [upd_other _ _ (by omega)]; exact hn p (by omega))
  have h2 : (List.range N).filterMap s = (List.range n).filterMap s :=
    Robin.filterMap_range_extend _ (by omega) (fun p hp _ => hn p hp)
  rw [h1, h2, List.range_succ, List.filterMap_append]
  congr 1
  · apply filterMap_congr'
    intro p hp
    exact upd_other _ _ (by have := List.mem_range.mp hp; omega)
  · simp [upd_self]

theorem Made.added (hE : E.Lawful) {c : Nat} {t t' : Map K V} {i : Nat} {x : Ctrl} {k : K} (v : V) (h0 : Good E t c)
    (h : Made E c t t' i x) (hx : x = ⟨x.dist, ctrlHash E k, t.size⟩) (hs : Robin.Stop (abs c t) (hm E c k) i ⟨x.dist, 0⟩)
    (hi : i < t.slen) (hsm : t.size < 2 ^ 32) (hk : ∀ e ∈ entries t, E.eq e.1 k = false) :
    ∃ t'', construct (k, v) t' = .ok t'' ∧ Added E t t'' c (k, v) := by
  obtain ⟨w, rfl⟩ := h.ctrl
  have hk' : ∀ e ∈ Robin.entries (abs c t), E.eq e.1 k = false := fun e he => hk e ((h0.entries_perm hE).mem_iff.mp he)
  obtain ⟨td, q1, q2, _, _, _, _, _⟩ := Robin.Made.good hE v h0.abs h.made hs hi hk'
  have hsz : t.size < t.slen := by
    have hq := q2.size
    have hle : (Robin.entries td).length ≤ td.slen := by
      unfold Robin.entries
      refine Nat.le_trans (List.length_filterMap_le _ _) ?_
      rw [List.length_range]
    unfold Robin.construct at q1
    rw [if_pos (show i < (abs c { t with ctrl := w } : Robin.Map K V).slen from hi)] at q1
    cases q1
    have h1 : t.size + 1 ≤ t.slen := by
      rw [← hq] at hle
      exact hle
    omega
  unfold construct
  rw [if_pos hsz]
  have hx0 : 0 ≤ x.dist := by
    have := hs.d_eq
    injection this with h1 _
    have := hs.ge
    omega
  have hx127 : x.dist ≤ 127 := by
    have h1 := hs.d_eq
    injection h1 with h1 _
    have := hs.le
    have := hs.ge
    omega
  have hwi : w i = x := h.at_i
  have hsd : (abs c { t with ctrl := w, slot := upd t.slot t.size (some (k, v)), size := t.size + 1 } : Robin.Map K V) = td := by
    unfold Robin.construct at q1
    rw [if_pos (show i < (abs c { t with ctrl := w } : Robin.Map K V).slen from hi)] at q1
    cases q1
    simp only [abs]
    congr 1
    funext p
    by_cases hp : p = i
    · subst hp
      rw [upd_self, absS_used hi (by rw [hwi]; exact hx0), hwi, hx, upd_self]
    · rw [upd_other _ _ hp]
      by_cases hpn : p < t.slen
      · rcases h.words p hpn hp with hw | ⟨hw1, _, hw3, _⟩
        · have hw' : w p = Ctrl.empty := hw
          rw [absS_unused (by rw [hw']; simp [Ctrl.empty]), absS_unused (by rw [hw']; simp [Ctrl.empty])]
        · rw [absS_used hpn hw1, absS_used hpn hw1, upd_other _ _ (by
            have : (w p).idx < t.size := hw3
            omega)]
      · rw [absS_unused (by omega), absS_unused (by omega)]
  have hclen := h0.toShape.clen_ge
  refine ⟨_, rfl, ?_, range_filterMap_push t.slot hsz h0.none_ (k, v), rfl, upd_self _ _ _, rfl, rfl, rfl, rfl⟩
  refine { toShape := ⟨h0.alloc, h0.pow, h0.mask, h0.look, h0.slen, h0.last, h0.clen⟩, some_ := ?_, none_ := ?_,
           abs := by rw [hsd]; exact q2, idx := ?_, hash := ?_, unused := ?_, tail := ?_, small := hsm }
  · intro j hj
    by_cases hjs : j = t.size
    · subst hjs; exact ⟨_, upd_self _ _ _⟩
    · obtain ⟨e, he⟩ := h0.some_ j (by have : j < t.size + 1 := hj; omega)
      exact ⟨e, by rw [← he]; exact upd_other _ _ hjs⟩
  · intro j hj
    have hj' : t.size + 1 ≤ j := hj
    show upd t.slot t.size _ j = none
    rw [upd_other _ _ (by omega)]
    exact h0.none_ j (by omega)
  · intro p hp hd
    show (w p).idx < t.size + 1
    by_cases hpi : p = i
    · subst hpi; rw [hwi, hx]; exact Nat.lt_succ_self _
    · rcases h.words p hp hpi with hw | ⟨_, _, hw3, _⟩
      · have hw' : w p = Ctrl.empty := hw
        have hd' : 0 ≤ (w p).dist := hd
        rw [hw'] at hd'; simp [Ctrl.empty] at hd'
      · have : (w p).idx < t.size := hw3
        omega
  · intro p e hp hd he
    have he' : upd t.slot t.size (some (k, v)) (w p).idx = some e := he
    have hd' : 0 ≤ (w p).dist := hd
    show (w p).hash = _
    by_cases hpi : p = i
    · subst hpi
      rw [hwi, hx] at he' ⊢
      rw [upd_self] at he'
      cases he'; rfl
    · rcases h.words p hp hpi with hw | ⟨_, _, hw3, e', hw4, hw5⟩
      · have hw' : w p = Ctrl.empty := hw
        rw [hw'] at hd'; simp [Ctrl.empty] at hd'
      · have : (w p).idx < t.size := hw3
        have hw4' : t.slot (w p).idx = some e' := hw4
        rw [upd_other _ _ (by omega), hw4'] at he'
        cases he'
        exact hw5
  · intro p hp hd
    have hd' : (w p).dist < 0 := hd
    show w p = _
    by_cases hpn : p < t.slen
    · by_cases hpi : p = i
      · subst hpi; rw [hwi] at hd'; omega
      · rcases h.words p hpn hpi with hw | ⟨hw1, _⟩
        · exact hw
        · have : 0 ≤ (w p).dist := hw1
          omega
    · have : w p = t.ctrl p := h.tail p (by omega)
      rw [this]
      exact h0.tail p (by omega) hp
  · intro p hp hpc
    have : w p = t.ctrl p := h.tail p hp
    show w p = _
    rw [this]
    exact h0.tail p hp hpc

end Verif.RobInd
