/-
Histories of calls on a robin hood map, compared with the ideal map.
-/
import Verif.RobinOps
import Verif.Demo

namespace Verif.Robin
open Spec (Distinct Call Ans)

/-! ### Histories -/

section Model
variable {K V : Type} (store chk : Bool) (E : Env K)

/-- The caller dereferences the returned iterator. -/
def readElem (t : Map K V) (r : Nat × Bool) : Out (Map K V) (Ans K V) :=
  match t.slot r.1 with
  | none => .ub
  | some e => .ok t (.elem e r.2)

/-- `operator[]` returns a reference to the mapped value. -/
def readValue (t : Map K V) (r : Nat × Bool) : Out (Map K V) (Ans K V) :=
  match t.slot r.1 with
  | none => .ub
  | some e => .ok t (.value (some e.2))

/-- One call.  `x` names the `float` that is passed: `x % 2^32` is the `n_mlf_` and `rv x` the `n_mlf_rev_` that `max_load_factor` computes from it
(see `Verif.LoadFactor`).
`reserve` and `rehash` are the same function.  The members called: `empty`, `size` RH:3268-3270, `max_load_factor` RH:3316-3335,
`begin`, `end` RH:3361-3418, `clear` RH:3504-3515, `reserve`, `rehash`, `shrink_to_fit` RH:3517-3540, `contains`, `find`
RH:3547-3562, `insert`, `insert_or_assign`, `emplace`, `try_emplace` RH:3580-3689, `operator []` RH:3691-3699, `at` RH:3701-3721,
`erase` RH:3723-3727. -/
def exec (rv : Nat → Nat) (mem : Bool) : Call K V → Map K V → Out (Map K V) (Ans K V)
  | .insert k v, t => (emplace store chk E false mem k v t).bind readElem
  | .assign k v, t => (emplace store chk E true mem k v t).bind readElem
  | .index k d, t => (emplace store chk E false mem k d t).bind readValue
  | .find k, t => lift (lookup store chk E t k) fun o => .ok t (.found o)
  | .contains k, t => lift (contains store chk E t k) fun b => .ok t (.bool b)
  | .count k, t => lift (contains store chk E t k) fun b => .ok t (.num (if b then 1 else 0))
  | .at k, t => lift (atKey store chk E t k) fun o => .ok t (.value o)
  | .erase k, t => (eraseKey store chk E k t).bind fun t' n => .ok t' (.num n)
  | .size, t => .ok t (.num t.size)
  | .empty, t => .ok t (.bool (t.size == 0))
  | .clear d, t => (clear store d t).bind fun t' _ => .ok t' .unit
  | .reserve n, t => (rehash store chk E mem false n t).bind fun t' _ => .ok t' .unit
  | .rehash n, t => (rehash store chk E mem false n t).bind fun t' _ => .ok t' .unit
  | .shrink ro, t => (shrinkToFit store chk E mem ro t).bind fun t' _ => .ok t' .unit
  | .maxLoad m, t => (setMlf store chk E mem (m % 2 ^ 32) (rv m) t).bind fun t' _ => .ok t' .unit
  | .iterate, t => lift (walk store t) fun l => .ok t (.items l)

/-- A history: calls paired with the allocator's answers.  An exception ends it. -/
def run (rv : Nat → Nat) : List (Bool × Call K V) → Map K V → Res (List (Ans K V) × Map K V)
  | [], t => .ok ([], t)
  | (mem, c) :: cs, t =>
    match exec store chk E rv mem c t with
    | .ub => .ub
    | .diverge => .diverge
    | .throw t' => .ok ([.threw], t')
    | .ok t' a => (run rv cs t').bind fun r => .ok (a :: r.1, r.2)

end Model

variable {K V : Type} {E : Env K}

/-! ### Iteration -/

/-- The elements from index `i` on. -/
def rest (t : Map K V) (i : Nat) : List (K × V) := (List.range' i (t.slen - i)).filterMap t.slot

theorem rest_zero (t : Map K V) : rest t 0 = entries t := by
  unfold rest entries
  rw [Nat.sub_zero, List.range_eq_range']

theorem rest_end {t : Map K V} {i : Nat} (h : t.slen ≤ i) : rest t i = [] := by
  unfold rest
  have : t.slen - i = 0 := by omega
  rw [this]; rfl

theorem rest_succ {t : Map K V} {i : Nat} (h : i < t.slen) : rest t i = (t.slot i).toList ++ rest t (i + 1) := by
  unfold rest
  obtain ⟨n, hn⟩ : ∃ n, t.slen - i = n + 1 := ⟨t.slen - i - 1, by omega⟩
  have : t.slen - (i + 1) = n := by omega
  rw [hn, this, List.range'_succ, List.filterMap_cons]
  cases t.slot i <;> rfl

theorem nextIdx_spec {t : Map K V} {c : Nat} (h : Good E t c) : ∀ (f i : Nat), i < t.slen → t.slen - i ≤ f →
    ∃ j, nextIdx t f i = .ok j ∧ i < j ∧ j ≤ t.slen ∧ (j < t.slen → (t.slot j).isSome = true) ∧ rest t (i + 1) = rest t j := by
  intro f
  induction f with
  | zero => intro i _ _; omega
  | succ f ih =>
    intro i hi hf
    unfold nextIdx
    rw [h.toShape.maxCap]
    by_cases hn : i + 1 < t.slen
    · rcases h.cell (i + 1) hn with ⟨h1, h2⟩ | ⟨e, h1, h2, _, h4⟩
      · rw [if_pos (by rw [h2, decide_eq_true hn]; rfl)]
        obtain ⟨j, e1, e2, e3, e4, e5⟩ := ih (i + 1) hn (by omega)
        refine ⟨j, e1, by omega, e3, e4, ?_⟩
        rw [rest_succ hn, h1, ← e5]; rfl
      · have hne : (t.ctrl (i + 1)).isEmpty = false := by
          rw [h4]
          unfold Ctrl.isEmpty
          simp only [beq_eq_false_iff_ne, ne_eq]
          omega
        rw [if_neg (by rw [hne]; simp)]
        exact ⟨i + 1, rfl, by omega, by omega, fun _ => by rw [h1]; rfl, rfl⟩
    · rw [if_neg (by simp [hn])]
      exact ⟨i + 1, rfl, by omega, by omega, fun h' => by omega, rfl⟩

theorem walkLoop_spec {t : Map K V} {c : Nat} (h : Good E t c) : ∀ (f i : Nat), i ≤ t.slen → (i < t.slen → (t.slot i).isSome = true) →
    t.slen - i < f → walkLoop t f i = .ok (rest t i) := by
  intro f
  induction f with
  | zero => intro i _ _ _; omega
  | succ f ih =>
    intro i hi hs hf
    unfold walkLoop
    rw [h.toShape.maxCap]
    by_cases he : i = t.slen
    · rw [if_pos he, rest_end (by omega)]
    · rw [if_neg he]
      have hlt : i < t.slen := by omega
      obtain ⟨e, hse⟩ := Option.isSome_iff_exists.mp (hs hlt)
      rw [hse]
      simp only
      have hclen := h.toShape.clen_ge
      obtain ⟨j, e1, e2, e3, e4, e5⟩ := nextIdx_spec h (t.clen - (i + 1)) i hlt (by omega)
      rw [e1, Res.bind_ok, ih j e3 e4 (by omega), Res.bind_ok, rest_succ hlt, hse, e5]
      rfl

theorem walk_spec {t : Map K V} {c : Nat} (h : Good E t c) : walk false t = .ok (entries t) := by
  unfold walk
  have hclen := h.toShape.clen_ge
  have hw : width false = 32 := rfl
  have hN : t.slen ≤ groups false t * width false ∧ groups false t * width false ≤ t.clen := by
    have := h.toShape.clen
    have := h.toShape.slen
    unfold groups
    rw [h.toShape.maxCap, hw]
    constructor <;> omega
  have hun : ∀ i, i < t.clen → (t.ctrl i).isUsed = false → t.slot i = none := by
    intro i hi hu
    by_cases hs : i < t.slen
    · rcases h.cell i hs with ⟨h1, _⟩ | ⟨e, _, h2, _, h4⟩
      · exact h1
      · exfalso
        unfold Ctrl.isUsed at hu
        rw [h4] at hu
        have := of_decide_eq_false hu
        simp only at this
        omega
    · exact (h.tail i (by omega)).1
  have hskip : ∀ b, b ≤ t.slen → (∀ i, i < b → t.slot i = none) → rest t b = entries t := by
    intro b
    induction b with
    | zero => intro _ _; exact rest_zero t
    | succ b ih =>
      intro hb hz
      rw [← ih (by omega) (fun i hi => hz i (by omega)), rest_succ (i := b) (by omega), hz b (by omega)]
      rfl
  unfold beginIdx
  cases hf : (List.range (groups false t * width false)).find? fun i => (t.ctrl i).isUsed with
  | none =>
    rw [List.find?_eq_none] at hf
    simp only [Option.getD_none]
    rw [h.toShape.maxCap, walkLoop_spec h _ _ (Nat.le_refl _) (fun h' => by omega) (by omega)]
    congr 1
    apply hskip _ (Nat.le_refl _)
    intro i hi
    apply hun i (by omega)
    have := hf i (List.mem_range.mpr (by omega))
    simpa using this
  | some b =>
    simp only [Option.getD_some]
    rw [List.find?_range_eq_some] at hf
    obtain ⟨h1, h2, h3⟩ := hf
    have hb := List.mem_range.mp h2
    have hd : 0 ≤ (t.ctrl b).dist := of_decide_eq_true h1
    have hlt := h.lt_slen (p := b) (by omega) hd
    obtain ⟨e, he, _⟩ := h.used hlt hd
    rw [walkLoop_spec h _ _ (by omega) (fun _ => by rw [he]; rfl) (by omega)]
    congr 1
    apply hskip _ (by omega)
    intro i hi
    apply hun i (by omega)
    have := h3 i hi
    simpa using this

/-! ### Read-only calls -/

theorem findIdx_spec (hE : E.Lawful) {t : Map K V} {c : Nat} (h : Good E t c) (k : K) :
    match findIdx false true E t k with
    | .ok (some i) => i < t.slen ∧ ∃ e, t.slot i = some e ∧ Spec.get E.eq (entries t) k = some e
    | .ok none => Spec.get E.eq (entries t) k = none
    | .diverge => False
    | .ub => ¬ Fits E c (entries t) ∧ Spec.get E.eq (entries t) k = none := by
  unfold findIdx
  have hp := probe_spec h k
  cases hpr : probe false true E t k with
  | diverge => rw [hpr] at hp; exact hp
  | ub =>
    rw [hpr] at hp
    refine ⟨fun hf => hf.not_crowded h (h.toShape.hm_lt k) hp.1, ?_⟩
    refine Spec.get_none_iff.mpr fun e he => absent_symm hE ?_
    cases hq : E.eq e.1 k with
    | false => rfl
    | true =>
      exfalso
      obtain ⟨p, hp1, hp2⟩ := mem_entries.mp he
      have hh := hm_congr (c := c) hE hq
      rcases h.cell p hp1 with ⟨h1, _⟩ | ⟨e', h1, h2, h3, _⟩
      · rw [h1] at hp2; cases hp2
      · rw [h1] at hp2; cases hp2
        have := (hp.2 (p - hm E c k) (by omega)).2 e (by rw [Nat.add_sub_cancel' (by omega)]; exact h1)
        rw [hq] at this; cases this
  | ok q =>
    rw [hpr] at hp
    simp only [Res.bind_ok]
    cases q with
    | hit i =>
      obtain ⟨hi, e, he, heq⟩ := hp
      exact ⟨hi, e, he, (Spec.get_some_iff hE h.distinct).mpr ⟨mem_entries.mpr ⟨i, hi, he⟩, hE.symm _ _ heq⟩⟩
    | stop i d =>
      obtain ⟨hs, hps⟩ := hp
      have hk := absent_of_stop hE h hs hps
      exact Spec.get_none_iff.mpr fun e he => absent_symm hE (hk e he)

theorem probe_fresh (m r : Nat) (k : K) : probe false true E (emptyMap false m r : Map K V) k = .ok (.stop 0 ⟨0, 0⟩) := by
  unfold probe
  have hh : home E (emptyMap false m r : Map K V) k = 0 := by
    unfold home emptyMap
    simp
  rw [hh]
  rfl

theorem findIdx_fresh {t : Map K V} (h : Fresh t) (k : K) : findIdx false true E t k = .ok none := by
  obtain ⟨m, r, rfl⟩ := h
  unfold findIdx
  rw [probe_fresh]
  rfl

/-! ### Invariant between calls -/

/-- The states a map can be in between two calls. -/
structure Reach (E : Env K) (t : Map K V) : Prop where
  mlf : t.mlf ≤ 256
  rev_lo : 256 ≤ t.rev
  rev_hi : t.rev ≤ 1024
  st : Fresh t ∨ ∃ c, Live E t c

/-- The elements `l` fit into every block of at least `l.length` positions. -/
def Roomy (E : Env K) (l : List (K × V)) : Prop := ∀ j, 2 ≤ j → l.length ≤ 2 ^ j → Fits E (2 ^ j) l

theorem Roomy.perm {l l' : List (K × V)} (h : l.Perm l') (hr : Roomy E l) : Roomy E l' := fun j h1 h2 =>
  (hr j h1 (by rw [h.length_eq]; exact h2)).perm h

/-- The contents of the ideal map after a call. -/
def next (eq : K → K → Bool) (m : Spec.Map K V) : Call K V → Spec.Map K V
  | .insert k v => Spec.insert eq m k v
  | .assign k v => Spec.assign eq m k v
  | .index k d => Spec.insert eq m k d
  | .erase k => Spec.erase eq m k
  | .clear _ => []
  | _ => m

/-- The reasons for an undefined outcome. -/
def Undefined (E : Env K) (t : Map K V) (m : Spec.Map K V) (c : Call K V) : Prop :=
  ¬ Roomy E m ∨ ¬ Roomy E (next E.eq m c) ∨ Fresh t ∧ ((∃ k, c = .find k) ∨ ∃ d, c = .clear d)

/-- `max_load_factor` arguments after clamping; `reserve(0)` is the same as `rehash(0)` and is left to it, because the
ideal map of Spec.lean follows the group tables, where `reserve(0)` destroys the contents. -/
def Valid : Call K V → Prop
  | .maxLoad m => m % 2 ^ 32 ≤ 256
  | .reserve n => n ≠ 0
  | _ => True

/-- Correctness of one call. -/
def StepOk (E : Env K) (t : Map K V) (m : Spec.Map K V) (c : Call K V) : Out (Map K V) (Ans K V) → Prop
  | .ok t' a => Reach E t' ∧ Spec.Accepts E.eq m c a (next E.eq m c) ∧ (entries t').Perm (next E.eq m c)
  | .throw _ => c.allocates = true
  | .diverge => False
  | .ub => Undefined E t m c


theorem Reach.distinct {t : Map K V} (h : Reach E t) : Distinct E.eq (entries t) := by
  rcases h.st with h | ⟨c, h⟩
  · rw [h.entries]; exact List.Pairwise.nil
  · exact h.distinct

theorem Reach.size {t : Map K V} (h : Reach E t) : t.size = (entries t).length := by
  rcases h.st with h | ⟨c, h⟩
  · rw [h.entries]; obtain ⟨m, r, rfl⟩ := h; rfl
  · exact h.size

/-- Replacing the mapped value of an element. -/
theorem Live.assign {t : Map K V} {c i : Nat} {e : K × V} (h : Live E t c) (hi : i < t.slen) (he : t.slot i = some e)
    (v : V) : Live E { t with slot := upd t.slot i (some (e.1, v)) } c ∧ ∃ A B, entries t = A ++ e :: B ∧
      entries { t with slot := upd t.slot i (some (e.1, v)) } = A ++ (e.1, v) :: B := by
  obtain ⟨A, B, hAB⟩ := filterMap_range_upd hi t.slot
  have h1 : entries t = A ++ e :: B := by
    have := hAB (t.slot i)
    rw [upd_eq_self, he] at this
    unfold entries
    rw [this]; simp
  have h2 : entries { t with slot := upd t.slot i (some (e.1, v)) } = A ++ (e.1, v) :: B := by
    have := hAB (some (e.1, v))
    unfold entries
    show (List.range t.slen).filterMap (upd t.slot i (some (e.1, v))) = _
    rw [this]; simp
  refine ⟨?_, A, B, h1, h2⟩
  have hsh : Shape { t with slot := upd t.slot i (some (e.1, v)) } c :=
    ⟨h.alloc, h.pow, h.mask, h.look, h.slen, h.last, h.clen⟩
  refine { toShape := hsh, cell := ?_, tail := ?_, order := h.order, distinct := ?_, size := ?_, thr_le := h.thr_le, size_le := h.size_le }
  · intro p hp
    show CellOK E c (t.ctrl p) (upd t.slot i (some (e.1, v)) p) p
    by_cases hpi : p = i
    · subst hpi
      rw [upd_self]
      rcases h.cell p hp with ⟨q1, _⟩ | ⟨e', q1, q2, q3, q4⟩
      · rw [q1] at he; cases he
      · rw [q1] at he; cases he
        exact Or.inr ⟨_, rfl, q2, q3, q4⟩
    · rw [upd_other _ _ hpi]; exact h.cell p hp
  · intro p hp
    have hp' : t.slen ≤ p := hp
    show upd t.slot i (some (e.1, v)) p = none ∧ (p < t.clen → t.ctrl p = tailCtrl c)
    rw [upd_other _ _ (by omega)]; exact h.tail p hp
  · rw [h2]
    have := h.distinct
    rw [h1] at this
    unfold Distinct at this ⊢
    rw [List.pairwise_append, List.pairwise_cons] at this ⊢
    refine ⟨this.1, ⟨this.2.1.1, this.2.1.2⟩, ?_⟩
    intro a ha b hb
    rcases List.mem_cons.mp hb with rfl | hb
    · exact this.2.2 a ha e (by simp)
    · exact this.2.2 a ha b (List.mem_cons_of_mem _ hb)
  · rw [h2]
    show t.size = _
    rw [h.size, h1]; simp

/-- The ideal map after an insertion. -/
def after (eq : K → K → Bool) (update : Bool) (m : Spec.Map K V) (k : K) (v : V) : Spec.Map K V :=
  if update then Spec.assign eq m k v else Spec.insert eq m k v

theorem emplace_ok (hE : E.Lawful) {t : Map K V} (hR : Reach E t) {m : Spec.Map K V} (hm : (entries t).Perm m)
    (update mem : Bool) (k : K) (v : V) :
    match emplace false true E update mem k v t with
    | .ok t' (i, b) => Reach E t' ∧ b = (Spec.get E.eq m k).isNone ∧ ∃ e, t'.slot i = some e ∧
        Spec.get E.eq (after E.eq update m k v) k = some e ∧ (entries t').Perm (after E.eq update m k v)
    | .throw _ => True
    | .diverge => False
    | .ub => ¬ Roomy E m ∨ ¬ Roomy E (after E.eq update m k v) := by
  have hdm : Distinct E.eq m := Spec.Distinct.perm hE hm hR.distinct
  have habs : (∀ x ∈ entries t, E.eq x.1 k = false) → Spec.get E.eq m k = none := fun hk =>
    Spec.get_none_iff.mpr fun e he => absent_symm hE (hk e (hm.mem_iff.mpr he))
  have haft : Spec.get E.eq m k = none → after E.eq update m k v = (k, v) :: m := by
    intro hg
    unfold after
    cases update
    · exact Spec.insert_absent hg v
    · simp [Spec.assign, hg]
  have hspec : EmplaceOk E t update k v (emplace false true E update mem k v t) := by
    unfold emplace
    rcases hR.st with h | ⟨c, h⟩
    · exact emplaceLoop_spec hE update mem k v 64 1 t (Or.inr ⟨h, rfl⟩) (by omega) (by omega) hR.mlf
    · obtain ⟨j, h1, h2, rfl⟩ := h.pow
      exact emplaceLoop_spec hE update mem k v 64 j t (Or.inl h) (by omega) (by omega) hR.mlf
  cases hr : emplace false true E update mem k v t with
  | throw t' => trivial
  | diverge => rw [hr] at hspec; exact hspec
  | ub =>
    rw [hr] at hspec
    obtain ⟨j, h1, ⟨h2, h3⟩ | ⟨hk, h2, h3⟩⟩ := hspec
    · left
      intro hroom
      exact h3 (((hroom.perm hm.symm) j h1 h2))
    · right
      rw [haft (habs hk)]
      intro hroom
      exact h3 ((hroom.perm (List.Perm.cons _ hm.symm)) j h1 (by simpa using h2))
  | ok t' p =>
    obtain ⟨i, b⟩ := p
    rw [hr] at hspec
    simp only
    rcases hspec with ⟨hb, hk, hp, hi, h5, h6, c', h7⟩ | ⟨hb, hi, e, he, heq, ht'⟩
    · have hg := habs hk
      rw [haft hg]
      refine ⟨⟨by rw [h5]; exact hR.mlf, by rw [h6]; exact hR.rev_lo, by rw [h6]; exact hR.rev_hi, Or.inr ⟨c', h7⟩⟩,
        by rw [hb, hg]; rfl, (k, v), hi, Spec.get_cons_self hE _ _ _, hp.trans (List.Perm.cons _ hm)⟩
    · have hke : E.eq k e.1 = true := hE.symm _ _ heq
      have hget : Spec.get E.eq m k = some e :=
        (Spec.get_some_iff hE hdm).mpr ⟨hm.mem_iff.mp (mem_entries.mpr ⟨i, hi, he⟩), hke⟩
      obtain ⟨c, h⟩ : ∃ c, Live E t c := by
        rcases hR.st with h | h
        · obtain ⟨a, b, rfl⟩ := h
          exact (Nat.not_lt_zero _ hi).elim
        · exact h
      cases update with
      | false =>
        simp only [Bool.false_eq_true, if_false] at ht'
        subst ht'
        refine ⟨hR, by rw [hb, hget]; rfl, e, he, ?_, ?_⟩
        · simp only [after, Bool.false_eq_true, if_false, Spec.insert_present hget v]; exact hget
        · simp only [after, Bool.false_eq_true, if_false, Spec.insert_present hget v]; exact hm
      | true =>
        simp only [if_true] at ht'
        subst ht'
        obtain ⟨hl, A, B, h1, h2⟩ := h.assign hi he v
        have hd := h.distinct
        have hperm : (entries { t with slot := upd t.slot i (some (e.1, v)) }).Perm (Spec.assign E.eq m k v) := by
          rw [h2]
          unfold Spec.assign
          rw [if_pos (by simp [hget])]
          refine List.Perm.trans ?_ (hm.map _)
          rw [h1]
          rw [h1] at hd
          rw [Spec.assign_at hE hd hke]
        refine ⟨⟨hR.mlf, hR.rev_lo, hR.rev_hi, Or.inr ⟨c, hl⟩⟩, by rw [hb, hget]; rfl, (e.1, v), upd_self _ _ _, ?_, ?_⟩
        · simp only [after, if_true]
          rw [← Spec.get_perm hE hperm hl.distinct, Spec.get_some_iff hE hl.distinct]
          refine ⟨?_, hke⟩
          rw [h2]; simp
        · simp only [after, if_true]; exact hperm

/-- A rehash, from every state between calls. -/
theorem rehash_ok (hE : E.Lawful) {t : Map K V} (hR : Reach E t) {m : Spec.Map K V} (hm : (entries t).Perm m)
    {c : Call K V} (hc : c.allocates = true) (hn : next E.eq m c = m) (ha : Spec.Accepts E.eq m c .unit m)
    {n : Nat} (h1 : t.size ≤ n) (h2 : n ≤ 2 ^ 63) (mem : Bool) (t0 : Map K V) :
    StepOk E t0 m c ((rehashImpl false true E true false mem n t).bind fun t' _ => .ok t' .unit) := by
  have hs := rehashImpl_spec hE (t := t) (by
    rcases hR.st with h | ⟨c, h⟩
    · exact Or.inl h
    · exact Or.inr ⟨c, h.toGood.weak⟩) true false mem n
  cases hr : rehashImpl false true E true false mem n t with
  | throw t' => exact hc
  | diverge => rw [hr] at hs; exact hs
  | ub =>
    rw [hr] at hs
    rcases hs with hs | ⟨cap, h3, h4⟩
    · have := calcCapacity_ub hs; omega
    · obtain ⟨j, hj, rfl, h6, _⟩ := calcCapacity_ok h3
      left
      intro hroom
      have := hR.size
      exact h4 ((hroom.perm hm.symm) j hj (by omega))
  | ok t' u =>
    rw [hr] at hs
    simp only [Out.bind_ok]
    rcases hs with ⟨cap, h3, _, h4⟩ | ⟨_, rfl, _⟩
    · obtain ⟨j, hj, rfl, h6, _⟩ := calcCapacity_ok h3
      have := hR.size
      refine ⟨⟨by rw [h4.mlf]; exact hR.mlf, by rw [h4.rev]; exact hR.rev_lo, by rw [h4.rev]; exact hR.rev_hi,
        Or.inr ⟨_, h4.live hR.mlf (by omega)⟩⟩, by rw [hn]; exact ha, by rw [hn]; exact h4.perm.trans hm⟩
    · exact ⟨hR, by rw [hn]; exact ha, by rw [hn]; exact hm⟩

theorem minRequire_le (t : Map K V) (n : Nat) : minRequire t n ≤ 2 ^ 56 := by
  unfold minRequire
  have : n * t.rev % W < 2 ^ 64 := Nat.mod_lt _ (by unfold W; decide)
  omega

theorem Reach.size_le {t : Map K V} (h : Reach E t) : t.size ≤ 2 ^ 48 := by
  rcases h.st with ⟨a, b, rfl⟩ | ⟨c, h⟩
  · exact Nat.zero_le _
  · obtain ⟨j, _, hj, rfl⟩ := h.pow
    have := h.size_le
    have := pow_two_le hj
    omega

theorem Reach.minRequire_ge {t : Map K V} (h : Reach E t) : t.size ≤ minRequire t t.size := by
  unfold minRequire
  have h1 := h.size_le
  have h2 : t.size * t.rev ≤ 2 ^ 48 * 1024 := Nat.mul_le_mul h1 h.rev_hi
  have h3 : t.size * 256 ≤ t.size * t.rev := Nat.mul_le_mul_left _ h.rev_lo
  rw [Nat.mod_eq_of_lt (by unfold W; omega)]
  omega

theorem Live.set_mlf {t : Map K V} {c : Nat} (h : Live E t c) (m r : Nat) : Live E { t with mlf := m, rev := r } c :=
  { toShape := ⟨h.alloc, h.pow, h.mask, h.look, h.slen, h.last, h.clen⟩
    cell := h.cell, tail := h.tail, order := h.order, distinct := h.distinct, size := h.size, thr_le := h.thr_le
    size_le := h.size_le }

/-- Every call, from every state between calls: the answer of the ideal map, or an undefined outcome for one of the
listed reasons. -/
theorem exec_ok (hE : E.Lawful) {t : Map K V} (hR : Reach E t) {m : Spec.Map K V} (hm : (entries t).Perm m)
    {rv : Nat → Nat} (hrv : ∀ x, 256 ≤ rv x ∧ rv x ≤ 1024) (mem : Bool) {c : Call K V} (hv : Valid c) :
    StepOk E t m c (exec false true E rv mem c t) := by
  have hget : ∀ k, Spec.get E.eq (entries t) k = Spec.get E.eq m k := Spec.get_perm hE hm hR.distinct
  have hfind : ∀ k, findIdx false true E t k = .ub → Undefined E t m c := by
    intro k hub
    rcases hR.st with h | ⟨c', h⟩
    · rw [findIdx_fresh h] at hub; cases hub
    · have := findIdx_spec hE h.toGood k
      rw [hub] at this
      left
      intro hroom
      obtain ⟨j, hj, _, rfl⟩ := h.pow
      exact this.1 ((hroom.perm hm.symm) j hj (by rw [← h.size]; exact h.size_le))
  have hfok : ∀ k r, findIdx false true E t k = .ok r → match r with
      | some i => i < t.slen ∧ maxCap t = t.slen ∧ t.last = some t.slen ∧ ∃ e, t.slot i = some e ∧ Spec.get E.eq m k = some e
      | none => Spec.get E.eq m k = none := by
    intro k r hr
    rcases hR.st with h | ⟨c', h⟩
    · rw [findIdx_fresh h] at hr
      cases hr
      rw [← hget, h.entries]; rfl
    · have := findIdx_spec hE h.toGood k
      rw [hr] at this
      cases r with
      | none => rw [← hget]; exact this
      | some i =>
        obtain ⟨h1, e, h2, h3⟩ := this
        exact ⟨h1, h.toShape.maxCap, h.last, e, h2, by rw [← hget]; exact h3⟩
  have hfdiv : ∀ k, findIdx false true E t k ≠ .diverge := by
    intro k hd
    rcases hR.st with h | ⟨c', h⟩
    · rw [findIdx_fresh h] at hd; cases hd
    · have := findIdx_spec hE h.toGood k
      rw [hd] at this; exact this
  have hcont : ∀ k, contains false true E t k = .ub ∧ Undefined E t m c ∨ contains false true E t k = .ok (Spec.get E.eq m k).isSome := by
    intro k
    unfold contains
    cases hf : findIdx false true E t k with
    | ub => left; exact ⟨rfl, hfind k hf⟩
    | diverge => exact (hfdiv k hf).elim
    | ok r =>
      right
      have := hfok k r hf
      cases r with
      | none => simp only [Res.bind_ok]; rw [this]; rfl
      | some i =>
        obtain ⟨h1, _, h3, e, _, h5⟩ := this
        simp only [Res.bind_ok]
        rw [h5, h3, decide_eq_true (by intro hx; cases hx; omega)]
        rfl
  cases c with
  | insert k v =>
    have := emplace_ok hE hR hm false mem k v
    simp only [exec]
    cases hr : emplace false true E false mem k v t with
    | ok t' r =>
      obtain ⟨i, b⟩ := r
      rw [hr] at this
      obtain ⟨h1, h2, e, h3, h4, h5⟩ := this
      simp only [Out.bind_ok, readElem]
      rw [h3]
      exact ⟨h1, ⟨rfl, h4, h2⟩, h5⟩
    | throw t' => rfl
    | diverge => rw [hr] at this; exact this
    | ub =>
      rw [hr] at this
      rcases this with h | h
      · exact Or.inl h
      · exact Or.inr (Or.inl h)
  | assign k v =>
    have := emplace_ok hE hR hm true mem k v
    simp only [exec]
    cases hr : emplace false true E true mem k v t with
    | ok t' r =>
      obtain ⟨i, b⟩ := r
      rw [hr] at this
      obtain ⟨h1, h2, e, h3, h4, h5⟩ := this
      simp only [Out.bind_ok, readElem]
      rw [h3]
      exact ⟨h1, ⟨rfl, h4, h2⟩, h5⟩
    | throw t' => rfl
    | diverge => rw [hr] at this; exact this
    | ub =>
      rw [hr] at this
      rcases this with h | h
      · exact Or.inl h
      · exact Or.inr (Or.inl h)
  | index k v =>
    have := emplace_ok hE hR hm false mem k v
    simp only [exec]
    cases hr : emplace false true E false mem k v t with
    | ok t' r =>
      obtain ⟨i, b⟩ := r
      rw [hr] at this
      obtain ⟨h1, h2, e, h3, h4, h5⟩ := this
      simp only [Out.bind_ok, readValue]
      rw [h3]
      have h4' : Spec.get E.eq (Spec.insert E.eq m k v) k = some e := h4
      exact ⟨h1, ⟨rfl, by rw [show next E.eq m (Call.index k v) = Spec.insert E.eq m k v from rfl, h4']; rfl, rfl⟩, h5⟩
    | throw t' => rfl
    | diverge => rw [hr] at this; exact this
    | ub =>
      rw [hr] at this
      rcases this with h | h
      · exact Or.inl h
      · exact Or.inr (Or.inl h)
  | find k =>
    simp only [exec, lookup, findIter]
    cases hf : findIdx false true E t k with
    | ub => exact hfind k hf
    | diverge => exact (hfdiv k hf).elim
    | ok r =>
      have := hfok k r hf
      cases r with
      | some i =>
        obtain ⟨h1, h2, _, e, h4, h5⟩ := this
        simp only [Res.bind_ok]
        rw [h2, if_neg (by omega), h4]
        exact ⟨hR, ⟨rfl, h5.symm⟩, hm⟩
      | none =>
        simp only [Res.bind_ok]
        rcases hR.st with h | ⟨c', h⟩
        · obtain ⟨a, b, rfl⟩ := h
          right; right
          exact ⟨⟨a, b, rfl⟩, Or.inl ⟨k, rfl⟩⟩
        · rw [h.last]
          simp only [Res.bind_ok]
          rw [h.toShape.maxCap, if_pos rfl]
          exact ⟨hR, ⟨rfl, this.symm⟩, hm⟩
  | contains k =>
    simp only [exec]
    rcases hcont k with ⟨h, h'⟩ | h
    · rw [h]; exact h'
    · rw [h]; exact ⟨hR, ⟨rfl, rfl⟩, hm⟩
  | count k =>
    simp only [exec]
    rcases hcont k with ⟨h, h'⟩ | h
    · rw [h]; exact h'
    · rw [h]; exact ⟨hR, ⟨rfl, rfl⟩, hm⟩
  | «at» k =>
    simp only [exec, atKey]
    cases hf : findIdx false true E t k with
    | ub => exact hfind k hf
    | diverge => exact (hfdiv k hf).elim
    | ok r =>
      have := hfok k r hf
      cases r with
      | none =>
        simp only [Res.bind_ok, lift]
        exact ⟨hR, ⟨rfl, by rw [show Spec.get E.eq m k = none from this]; rfl⟩, hm⟩
      | some i =>
        obtain ⟨h1, _, h3, e, h4, h5⟩ := this
        simp only [Res.bind_ok]
        rw [h3, if_neg (by intro hx; cases hx; omega), h4]
        exact ⟨hR, ⟨rfl, by rw [h5]; rfl⟩, hm⟩
  | erase k =>
    simp only [exec, eraseKey]
    cases hf : findIdx false true E t k with
    | ub => exact hfind k hf
    | diverge => exact (hfdiv k hf).elim
    | ok r =>
      have := hfok k r hf
      cases r with
      | none =>
        have hn : Spec.get E.eq m k = none := this
        simp only [lift, Out.bind_ok]
        have he : Spec.erase E.eq m k = m := by
          unfold Spec.erase
          rw [List.filter_eq_self]
          intro e he
          rw [Spec.get_none_iff.mp hn e he]; rfl
        refine ⟨hR, ⟨rfl, by rw [hn]; rfl⟩, ?_⟩
        show (entries t).Perm (Spec.erase E.eq m k)
        rw [he]; exact hm
      | some i =>
        obtain ⟨h1, h2, _, e, h4, h5⟩ := this
        obtain ⟨c', h⟩ : ∃ c, Live E t c := by
          rcases hR.st with h | h
          · obtain ⟨a, b, rfl⟩ := h
            exact (Nat.not_lt_zero _ h1).elim
          · exact h
        simp only [lift]
        rw [h2, if_neg (by omega)]
        obtain ⟨t', g1, g2, g3, g4, g5, g6⟩ := eraseSlot_spec h.toGood hE h1 h4
        rw [g1]
        simp only [Out.bind_ok]
        have hdm : Distinct E.eq m := Spec.Distinct.perm hE hm hR.distinct
        refine ⟨⟨by rw [g4]; exact hR.mlf, by rw [g5]; exact hR.rev_lo, by rw [g5]; exact hR.rev_hi, Or.inr ⟨c',
          { toGood := g2, thr_le := by rw [g6]; exact h.thr_le, size_le := ?_ }⟩⟩, ⟨rfl, by rw [h5]; rfl⟩, ?_⟩
        · have q1 := g3.length_eq
          have q2 := h.size
          have q3 := h.size_le
          rw [g2.size]
          simp only [List.length_cons] at q1
          omega
        · exact (Spec.erase_perm hE hdm (hm.symm.trans g3.symm) ((Spec.get_some_iff hE hdm).mp h5).2).symm
  | size =>
    simp only [exec]
    exact ⟨hR, ⟨rfl, by rw [hR.size, hm.length_eq]⟩, hm⟩
  | empty =>
    simp only [exec]
    refine ⟨hR, ⟨rfl, ?_⟩, hm⟩
    rw [hR.size, hm.length_eq]
    simp
  | clear d =>
    simp only [exec, clear]
    rcases hR.st with h | ⟨c', h⟩
    · obtain ⟨a, b, rfl⟩ := h
      have : clearData false (emptyMap false a b : Map K V) = .ub := rfl
      rw [if_neg (by simp [slotCap, emptyMap]), this]
      right; right
      exact ⟨⟨a, b, rfl⟩, Or.inr ⟨d, rfl⟩⟩
    · have hc4 := h.toShape.c_ge
      cases d with
      | true =>
        rw [h.toShape.slotCap, if_pos (by simp; omega)]
        exact ⟨⟨hR.mlf, hR.rev_lo, hR.rev_hi, Or.inl ⟨_, _, rfl⟩⟩, rfl, List.Perm.refl _⟩
      | false =>
        rw [if_neg (by simp)]
        unfold clearData
        rw [if_pos h.alloc]
        simp only [Out.bind_ok]
        have hg := good_of_cleared (E := E)
          (t := ({ t with ctrl := clearedCtrl false (slotCap t) t.look (groups false t), slot := fun _ => none, size := 0 } : Map K V))
          (c := c') ⟨h.alloc, h.pow, h.mask, h.look, h.slen, h.last, h.clen⟩
          (by
            show clearedCtrl false (slotCap t) t.look (groups false t) = _
            unfold groups
            rw [h.toShape.maxCap, h.toShape.slotCap, h.look, h.slen]
            rfl) rfl rfl
        refine ⟨⟨hR.mlf, hR.rev_lo, hR.rev_hi, Or.inr ⟨c', { toGood := hg.1, thr_le := h.thr_le, size_le := Nat.zero_le _ }⟩⟩, rfl, ?_⟩
        rw [hg.2]; exact List.Perm.refl _
  | reserve n =>
    simp only [exec, rehash, Bool.false_eq_true, if_false]
    have := minRequire_le t n
    have := hR.size_le
    exact rehash_ok hE hR hm rfl rfl (by show m = if n = 0 then [] else m; rw [if_neg hv]) (by omega) (by omega) mem t
  | rehash n =>
    simp only [exec, rehash, Bool.false_eq_true, if_false]
    have := minRequire_le t n
    have := hR.size_le
    exact rehash_ok hE hR hm (by rfl) (by rfl) (by rfl) (by omega) (by omega) mem t
  | shrink ro =>
    simp only [exec, shrinkToFit]
    have := minRequire_le t t.size
    have := hR.size_le
    have := hR.minRequire_ge
    exact rehash_ok hE hR hm (by rfl) (by rfl) (by rfl) (by split <;> omega) (by split <;> omega) mem t
  | maxLoad x =>
    simp only [exec, setMlf]
    have hR1 : Reach E { t with mlf := x % 2 ^ 32, rev := rv x } := by
      refine ⟨hv, (hrv x).1, (hrv x).2, ?_⟩
      rcases hR.st with h | ⟨c', h⟩
      · obtain ⟨a, b, rfl⟩ := h
        exact Or.inl ⟨x % 2 ^ 32, rv x, rfl⟩
      · exact Or.inr ⟨c', h.set_mlf _ _⟩
    split
    · simp only [rehash, Bool.false_eq_true, if_false]
      have := minRequire_le { t with mlf := x % 2 ^ 32, rev := rv x } t.size
      have := hR.size_le
      exact rehash_ok hE hR1 hm (by rfl) (by rfl) (by rfl) (Nat.le_max_right _ _) (Nat.max_le.mpr ⟨by omega, by show t.size ≤ _; omega⟩) mem t
    · exact ⟨hR1, rfl, hm⟩
  | iterate =>
    simp only [exec]
    rcases hR.st with h | ⟨c', h⟩
    · obtain ⟨a, b, rfl⟩ := h
      have hb : beginIdx false (emptyMap false a b : Map K V) = 4 := by
        unfold beginIdx
        have hl : (List.range (groups false (emptyMap false a b : Map K V) * width false)) = List.range 32 := by
          simp [groups, maxCap, slotCap, width, emptyMap, minLookups]
        rw [hl]
        show ((List.range 32).find? fun i => (if i < 4 then Ctrl.empty else Ctrl.endOf).isUsed).getD 4 = 4
        decide
      have hw : walk false (emptyMap false a b : Map K V) = .ok [] := by
        unfold walk
        rw [hb]
        rfl
      rw [hw]
      exact ⟨hR, ⟨rfl, hm⟩, hm⟩
    · rw [walk_spec h.toGood]
      exact ⟨hR, ⟨rfl, hm⟩, hm⟩

end Verif.Robin
