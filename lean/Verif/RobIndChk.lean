/-
The checks of the model of the indirect layout (`chk = true`) only turn outcomes into `ub`: whenever the checked computation is
defined, the code as it is (`chk = false`) does the same.
-/
import Verif.RobIndRun

namespace Verif.RobInd
open Spec (Call Ans)
open Robin (RLe OLe)

variable {K V : Type} {E : Env K}

theorem lift_le {α β : Type} {a b : Res α} {f g : α → Out (Map K V) β} (h : RLe a b) (hf : ∀ x, OLe (f x) (g x)) :
    OLe (lift a f) (lift b g) := by
  rcases h with rfl | rfl
  · exact Or.inl rfl
  · cases a with
    | ok x => exact hf x
    | diverge => exact Or.inr rfl
    | ub => exact Or.inl rfl

theorem probeLoop_chk (t : Map K V) (k : K) : ∀ (f i : Nat) (d : Ctrl),
    RLe (probeLoop true E t k f i d) (probeLoop false E t k f i d) := by
  intro f
  induction f with
  | zero => intro i d; exact RLe.refl _
  | succ f ih =>
    intro i d
    unfold probeLoop
    split
    · split
      · cases t.slot (t.ctrl i).idx with
        | none => exact RLe.refl _
        | some e =>
          simp only
          split
          · exact RLe.refl _
          · exact RLe.guard (ih _ _)
      · exact RLe.guard (ih _ _)
    · exact RLe.refl _

theorem probe_chk (t : Map K V) (k : K) : RLe (probe true E t k) (probe false E t k) := probeLoop_chk _ _ _ _ _

theorem seekLoop_chk (t : Map K V) : ∀ (f i : Nat) (d : Ctrl), RLe (seekLoop true t f i d) (seekLoop false t f i d) := by
  intro f
  induction f with
  | zero => intro i d; exact RLe.refl _
  | succ f ih =>
    intro i d
    unfold seekLoop
    split
    · exact RLe.guard (ih _ _)
    · exact RLe.refl _

theorem seek_chk (t : Map K V) (k : K) : RLe (seek true E t k) (seek false E t k) := seekLoop_chk _ _ _ _

theorem findCtrlIdx_chk (t : Map K V) (k : K) : RLe (findCtrlIdx true E t k) (findCtrlIdx false E t k) :=
  (probe_chk t k).bind fun _ => RLe.refl _

theorem findIdx_chk (t : Map K V) (k : K) : RLe (findIdx true E t k) (findIdx false E t k) :=
  (findCtrlIdx_chk t k).bind fun _ => RLe.refl _

theorem lookup_chk (t : Map K V) (k : K) : RLe (lookup true E t k) (lookup false E t k) :=
  RLe.bind ((findIdx_chk t k).bind fun _ => RLe.refl _) fun _ => RLe.refl _

theorem contains_chk (t : Map K V) (k : K) : RLe (contains true E t k) (contains false E t k) :=
  (findIdx_chk t k).bind fun _ => RLe.refl _

theorem atKey_chk (t : Map K V) (k : K) : RLe (atKey true E t k) (atKey false E t k) :=
  (findIdx_chk t k).bind fun _ => RLe.refl _

theorem placeLoop_chk (rh : Bool) (p0 : Nat) : ∀ (f : Nat) (w : Nat → Ctrl) (i : Nat) (r : Ctrl),
    RLe (placeLoop true rh p0 f w i r) (placeLoop false rh p0 f w i r) := by
  intro f
  induction f with
  | zero => intro w i r; exact RLe.refl _
  | succ f ih =>
    intro w i r
    unfold placeLoop
    split
    · exact RLe.refl _
    · simp only [Bool.and_assoc]
      apply RLe.guard
      split <;> split <;> first
        | exact RLe.refl _
        | exact ih _ _ _

theorem place_chk (rh : Bool) (hash : Nat) (t : Map K V) (i : Nat) (d : Ctrl) :
    RLe (place true rh hash t i d) (place false rh hash t i d) := by
  unfold place
  split
  · apply RLe.guard
    simp only
    split
    · exact RLe.refl _
    · exact RLe.bind (RLe.guard (placeLoop_chk _ _ _ _ _ _)) fun _ => RLe.refl _
  · exact RLe.refl _

theorem insertNoGrow_chk (e : K × V) (t : Map K V) : RLe (insertNoGrow true E e t) (insertNoGrow false E e t) :=
  (seek_chk t e.1).bind fun _ => (place_chk true _ t _ _).bind fun _ => RLe.guard (RLe.refl _)

theorem transferAll_chk (old : Map K V) : ∀ (is : List Nat) (t : Map K V),
    RLe (transferAll true E old is t) (transferAll false E old is t) := by
  intro is
  induction is with
  | nil => intro t; exact RLe.refl _
  | cons i is ih =>
    intro t
    unfold transferAll
    cases old.slot i with
    | none => exact RLe.refl _
    | some e => exact (insertNoGrow_chk e t).bind fun t' => ih t'

theorem rehashImpl_chk (sh al mem : Bool) (n : Nat) (t : Map K V) :
    OLe (rehashImpl true E sh al mem n t) (rehashImpl false E sh al mem n t) := by
  unfold rehashImpl
  cases Robin.calcCapacity n with
  | ub => exact Or.inl rfl
  | diverge => exact Or.inr rfl
  | ok cap =>
    simp only
    split
    · cases createSlots mem cap t with
      | ok t1 u =>
        simp only
        rcases transferAll_chk (E := E) t (if t.alloc then List.range t.size else []) t1 with h | h
        · rw [h]; exact Or.inl rfl
        · rw [h]; exact Or.inr rfl
      | throw t' => exact Or.inr rfl
      | diverge => exact Or.inr rfl
      | ub => exact Or.inr rfl
    · exact Or.inr rfl

theorem finish_chk (k : K) (t : Map K V) (i : Nat) (d : Ctrl) : OLe (finish true E k t i d) (finish false E k t i d) :=
  lift_le (place_chk false _ t i _) fun _ => OLe.refl _

theorem findOrInsert_chk (mem : Bool) (k : K) (t : Map K V) :
    OLe (findOrInsert true E mem k t) (findOrInsert false E mem k t) := by
  unfold findOrInsert
  apply lift_le (probe_chk t k)
  intro p
  cases p with
  | hit i => exact OLe.refl _
  | stop i d =>
    simp only
    split
    · exact (rehashImpl_chk false true mem _ t).bind fun t1 _ => lift_le (seek_chk t1 k) fun _ => finish_chk k t1 _ _
    · exact finish_chk k t i d

theorem emplaceLoop_chk (update mem : Bool) (k : K) (v : V) : ∀ (f : Nat) (t : Map K V),
    OLe (emplaceLoop true E update mem k v f t) (emplaceLoop false E update mem k v f t) := by
  intro f
  induction f with
  | zero => intro t; exact OLe.refl _
  | succ f ih =>
    intro t
    unfold emplaceLoop
    apply (findOrInsert_chk mem k t).bind
    intro t' r
    cases r with
    | exists_ i => exact OLe.refl _
    | notExists => exact OLe.refl _
    | needGrow => exact (rehashImpl_chk false true mem _ t').bind fun t'' _ => ih t''

theorem exec_chk (rv : Nat → Nat) (mem : Bool) (c : Call K V) (t : Map K V) :
    OLe (exec true E rv mem c t) (exec false E rv mem c t) := by
  cases c with
  | insert k v => exact (emplaceLoop_chk false mem k v 64 t).bind fun _ _ => OLe.refl _
  | assign k v => exact (emplaceLoop_chk true mem k v 64 t).bind fun _ _ => OLe.refl _
  | index k v => exact (emplaceLoop_chk false mem k v 64 t).bind fun _ _ => OLe.refl _
  | find k => exact lift_le (lookup_chk t k) fun _ => OLe.refl _
  | contains k => exact lift_le (contains_chk t k) fun _ => OLe.refl _
  | count k => exact lift_le (contains_chk t k) fun _ => OLe.refl _
  | «at» k => exact lift_le (atKey_chk t k) fun _ => OLe.refl _
  | erase k => exact OLe.bind (lift_le (findCtrlIdx_chk t k) fun _ => OLe.refl _) fun _ _ => OLe.refl _
  | size => exact OLe.refl _
  | empty => exact OLe.refl _
  | clear d => exact OLe.refl _
  | reserve n => exact (rehashImpl_chk true false mem _ t).bind fun _ _ => OLe.refl _
  | rehash n => exact (rehashImpl_chk true false mem _ t).bind fun _ _ => OLe.refl _
  | shrink ro => exact (rehashImpl_chk true false mem _ t).bind fun _ _ => OLe.refl _
  | maxLoad x =>
    apply OLe.bind _ fun _ _ => OLe.refl _
    unfold setMlf
    simp only
    split
    · exact rehashImpl_chk true false mem _ _
    · exact OLe.refl _
  | iterate => exact OLe.refl _

theorem run_chk (rv : Nat → Nat) : ∀ (cs : List (Bool × Call K V)) (t : Map K V),
    RLe (run true E rv cs t) (run false E rv cs t) := by
  intro cs
  induction cs with
  | nil => intro t; exact RLe.refl _
  | cons c cs ih =>
    intro t
    obtain ⟨mem, c⟩ := c
    unfold run
    rcases exec_chk (E := E) rv mem c t with h | h
    · rw [h]; exact Or.inl rfl
    · rw [h]
      cases exec false E rv mem c t with
      | ub => exact Or.inl rfl
      | diverge => exact Or.inr rfl
      | throw t' => exact Or.inr rfl
      | ok t' a => exact (ih t').bind fun _ => RLe.refl _

end Verif.RobInd
