/-
Whole histories: correctness, memory safety and termination of `run`.
-/
import Verif.Account

namespace Verif
open Spec (Call Ans)

section
variable {K V : Type} {L : Layout} {H : Laws L} {E : Env K} {walk : Table K V → Res (List (K × V))}

/-- What a history can lead to, apart from not terminating. -/
def RunOk (H : Laws L) (E : Env K) (walk : Table K V → Res (List (K × V))) (ops : List (Bool × Call K V))
    (t : Table K V) (m : Spec.Map K V) : Res (List (Ans K V) × Table K V) → Prop
  | .ok (as, t') => Inv H E t' ∧ ∃ m', Spec.AcceptsAll E.eq m (ops.map (·.2)) as m' ∧ (entries L t').Perm m'
  | .diverge => True
  | .ub => ∃ pre op post as t1, ops = pre ++ op :: post ∧ run L E walk pre t = .ok (as, t1) ∧ BadCall L t1 op.2

theorem run_ok (hE : E.Lawful) (hwalk : ∀ t, Inv H E t → walk t = .ok (entries L t)) :
    ∀ (ops : List (Bool × Call K V)) (t : Table K V) (m : Spec.Map K V), Inv H E t → (entries L t).Perm m →
      (∀ op ∈ ops, Valid op.2) → RunOk H E walk ops t m (run L E walk ops t) := by
  intro ops
  induction ops with
  | nil => intro t m hI hm _; exact ⟨hI, m, rfl, hm⟩
  | cons op ops ih =>
    obtain ⟨mem, c⟩ := op
    intro t m hI hm hv
    have hstep := hI.exec_ok hE hwalk hm mem (hv (mem, c) (by simp))
    have hv' : ∀ op ∈ ops, Valid op.2 := fun op h => hv op (List.mem_cons_of_mem _ h)
    have key : ∀ (t' : Table K V) (a : Ans K V) (m1 : Spec.Map K V), Inv H E t' → (entries L t').Perm m1 →
        Spec.Accepts E.eq m c a m1 →
        (∀ pre, run L E walk ((mem, c) :: pre) t = (run L E walk pre t').bind fun r => .ok (a :: r.1, r.2)) →
        RunOk H E walk ((mem, c) :: ops) t m (run L E walk ((mem, c) :: ops) t) := by
      intro t' a m1 hI' hm' ha hrun
      have hrec := ih t' m1 hI' hm' hv'
      rw [hrun]
      cases hr : run L E walk ops t' with
      | diverge => trivial
      | ok r =>
        obtain ⟨as, t2⟩ := r
        rw [hr] at hrec
        obtain ⟨h1, m2, h2, h3⟩ := hrec
        exact ⟨h1, m2, ⟨m1, ha, h2⟩, h3⟩
      | ub =>
        rw [hr] at hrec
        obtain ⟨pre, op, post, as, t1, h1, h2, h3⟩ := hrec
        refine ⟨(mem, c) :: pre, op, post, a :: as, t1, by rw [h1]; rfl, ?_, h3⟩
        rw [hrun, h2]; rfl
    cases hr : exec L E walk mem c t with
    | ok t' a =>
      rw [hr] at hstep
      obtain ⟨hI', m1, ha, hm'⟩ := hstep
      exact key t' a m1 hI' hm' ha (fun pre => by simp only [run, hr])
    | throw t' =>
      rw [hr] at hstep
      obtain ⟨hI', hal, hm'⟩ := hstep
      refine key t' .threw m hI' hm' ?_ (fun pre => by simp only [run, hr])
      cases c <;> first | exact ⟨rfl, rfl⟩ | cases hal
    | diverge => simp only [run, hr]; trivial
    | ub =>
      rw [hr] at hstep
      simp only [run, hr]
      exact ⟨[], (mem, c), ops, [], t, rfl, rfl, hstep⟩

/-- A history of calls none of which can hang does not hang. -/
theorem run_noHang {P : Table K V → Prop} {Q : Call K V → Prop} (hE : E.Lawful)
    (hwalk : ∀ t, Inv H E t → walk t = .ok (entries L t))
    (hP : ∀ t mem c, Inv H E t → P t → Valid c → Q c → NoHang P (exec L E walk mem c t)) :
    ∀ (ops : List (Bool × Call K V)) (t : Table K V), Inv H E t → P t →
      (∀ op ∈ ops, Valid op.2) → (∀ op ∈ ops, Q op.2) →
      run L E walk ops t ≠ .diverge ∧ ∀ as t', run L E walk ops t = .ok (as, t') → P t' := by
  intro ops
  induction ops with
  | nil =>
    intro t hI h _ _
    refine ⟨by simp [run], ?_⟩
    intro as t' h'
    simp only [run, Res.ok.injEq, Prod.mk.injEq] at h'
    rw [← h'.2]; exact h
  | cons op ops ih =>
    obtain ⟨mem, c⟩ := op
    intro t hI h hv hq
    have hstep := hI.exec_ok hE hwalk (List.Perm.refl _) mem (hv (mem, c) (by simp))
    have hN := hP t mem c hI h (hv (mem, c) (by simp)) (hq (mem, c) (by simp))
    have key : ∀ (t' : Table K V) (a : Ans K V), Inv H E t' → P t' →
        run L E walk ((mem, c) :: ops) t = ((run L E walk ops t').bind fun r => .ok (a :: r.1, r.2)) →
        run L E walk ((mem, c) :: ops) t ≠ .diverge ∧
          ∀ as t', run L E walk ((mem, c) :: ops) t = .ok (as, t') → P t' := by
      intro t' a hI' hP' hrun
      obtain ⟨h1, h2⟩ := ih t' hI' hP' (fun op h => hv op (List.mem_cons_of_mem _ h))
        (fun op h => hq op (List.mem_cons_of_mem _ h))
      rw [hrun]
      cases hr : run L E walk ops t' with
      | diverge => exact absurd hr h1
      | ub => simp [Res.bind]
      | ok r =>
        obtain ⟨as, t2⟩ := r
        refine ⟨by simp [Res.bind], ?_⟩
        intro as' t'' h3
        simp only [Res.bind_ok, Res.ok.injEq, Prod.mk.injEq] at h3
        rw [← h3.2]
        exact h2 as t2 hr
    cases hr : exec L E walk mem c t with
    | ok t' a =>
      rw [hr] at hstep hN
      exact key t' a hstep.1 hN (by simp only [run, hr])
    | throw t' =>
      rw [hr] at hstep hN
      exact key t' .threw hstep.1 hN (by simp only [run, hr])
    | diverge => rw [hr] at hN; exact hN.elim
    | ub => simp [run, hr]

theorem run_append (ops1 ops2 : List (Bool × Call K V)) (t : Table K V) :
    run L E walk (ops1 ++ ops2) t =
      (run L E walk ops1 t).bind fun r => (run L E walk ops2 r.2).bind fun s => .ok (r.1 ++ s.1, s.2) := by
  induction ops1 generalizing t with
  | nil =>
    simp only [run, List.nil_append, Res.bind_ok]
    cases run L E walk ops2 t <;> rfl
  | cons op ops ih =>
    obtain ⟨mem, c⟩ := op
    simp only [List.cons_append, run]
    cases exec L E walk mem c t with
    | ub => rfl
    | diverge => rfl
    | ok t' a =>
      simp only
      rw [ih]
      cases run L E walk ops t' with
      | ub => rfl
      | diverge => rfl
      | ok r =>
        simp only [Res.bind_ok]
        cases run L E walk ops2 r.2 <;> rfl
    | throw t' =>
      simp only
      rw [ih]
      cases run L E walk ops t' with
      | ub => rfl
      | diverge => rfl
      | ok r =>
        simp only [Res.bind_ok]
        cases run L E walk ops2 r.2 <;> rfl

/-- A freshly constructed table. -/
theorem construct_spec {mem : Bool} {n : Nat} {t : Table K V} (h : construct L mem n = .ok t ()) :
    Inv H E t ∧ entries L t = [] ∧ t.size = 0 ∧ AccN H t := by
  unfold construct at h
  simp only at h
  split at h
  · split at h
    · cases h
    · cases h
    · rename_i hc
      obtain ⟨k, h1, h2, h3, h4, h5⟩ := calcCapacity_ok hc
      subst h1
      by_cases hw : wrapRisk L mem (2 ^ k) = true
      · rw [if_pos hw] at h; cases h
      rw [if_neg hw, createSlots_ok h2] at h
      split at h
      · rename_i hm
        obtain ⟨_, hk⟩ := hm
        cases h
        have hinv := freshTable_inv (K := K) (V := V) (H := H) (E := E) (mlf := 224) h2 hk
        have hN : NewStore H E k 224 (freshTable L k 224 : Table K V) :=
          ⟨h2, hk, hinv.1, hinv.2, rfl, rfl, rfl⟩
        exact ⟨hN.inv' (by omega) (by omega), freshTable_entries _ _, rfl, hN.thr_le (by omega), fun _ => hN.fresh⟩
      · cases h
  · cases h
    exact ⟨inv_empty (by omega) (by omega), entries_empty _, rfl, accN_empty _⟩

end
end Verif
