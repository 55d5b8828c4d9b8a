/-
The checks of the model (`chk = true`) only turn outcomes into `ub`: whenever the checked computation is defined, the code
as it is (`chk = false`) does the same.
-/
import Verif.RobinRun

namespace Verif.Robin
open Spec (Call Ans)

variable {K V : Type} {E : Env K} {store : Bool}

/-- `a` is undefined or equal to `b`. -/
def RLe {α : Type} (a b : Res α) : Prop := a = .ub ∨ a = b
/-- The same for modifying operations. -/
def OLe {σ α : Type} (a b : Out σ α) : Prop := a = .ub ∨ a = b

theorem RLe.refl {α : Type} (a : Res α) : RLe a a := Or.inr rfl
theorem OLe.refl {σ α : Type} (a : Out σ α) : OLe a a := Or.inr rfl

theorem RLe.bind {α β : Type} {a b : Res α} {f g : α → Res β} (h : RLe a b) (hf : ∀ x, RLe (f x) (g x)) :
    RLe (a.bind f) (b.bind g) := by
  rcases h with rfl | rfl
  · exact Or.inl rfl
  · cases a with
    | ok x => exact hf x
    | diverge => exact Or.inr rfl
    | ub => exact Or.inl rfl

theorem OLe.bind {σ α β : Type} {a b : Out σ α} {f g : σ → α → Out σ β} (h : OLe a b) (hf : ∀ s x, OLe (f s x) (g s x)) :
    OLe (a.bind f) (b.bind g) := by
  rcases h with rfl | rfl
  · exact Or.inl rfl
  · cases a with
    | ok s x => exact hf s x
    | throw s => exact Or.inr rfl
    | diverge => exact Or.inr rfl
    | ub => exact Or.inl rfl

theorem OLe.lift {α β : Type} {a b : Res α} {f g : α → Out (Map K V) β} (h : RLe a b) (hf : ∀ x, OLe (f x) (g x)) :
    OLe (Robin.lift a f) (Robin.lift b g) := by
  rcases h with rfl | rfl
  · exact Or.inl rfl
  · cases a with
    | ok x => exact hf x
    | diverge => exact Or.inr rfl
    | ub => exact Or.inl rfl

/-- A check in front of a computation. -/
theorem RLe.guard {α : Type} {b : Bool} {x y : Res α} (h : RLe x y) : RLe (if (true && b) = true then .ub else x) (if (false && b) = true then .ub else y) := by
  simp only [Bool.true_and, Bool.false_and, Bool.false_eq_true, if_false]
  cases b with
  | true => exact Or.inl rfl
  | false => exact h

theorem probeLoop_chk (t : Map K V) (k : K) : ∀ (f i : Nat) (d : Ctrl),
    RLe (probeLoop store true E t k f i d) (probeLoop store false E t k f i d) := by
  intro f
  induction f with
  | zero => intro i d; exact RLe.refl _
  | succ f ih =>
    intro i d
    unfold probeLoop
    by_cases h1 : d.val store ≤ (t.ctrl i).val store
    · rw [if_pos h1, if_pos h1]
      by_cases h2 : (!store || (t.ctrl i).hash == ctrlHash store E k) = true
      · rw [if_pos h2, if_pos h2]
        cases t.slot i with
        | none => exact RLe.refl _
        | some e =>
          simp only
          by_cases h3 : E.eq e.1 k = true
          · rw [if_pos h3, if_pos h3]; exact RLe.refl _
          · rw [if_neg h3, if_neg h3]; exact RLe.guard (ih _ _)
      · rw [if_neg h2, if_neg h2]; exact RLe.guard (ih _ _)
    · rw [if_neg h1, if_neg h1]; exact RLe.refl _

theorem probe_chk (t : Map K V) (k : K) : RLe (probe store true E t k) (probe store false E t k) := probeLoop_chk _ _ _ _ _

theorem seekLoop_chk (t : Map K V) : ∀ (f i : Nat) (d : Ctrl), RLe (seekLoop store true t f i d) (seekLoop store false t f i d) := by
  intro f
  induction f with
  | zero => intro i d; exact RLe.refl _
  | succ f ih =>
    intro i d
    unfold seekLoop
    by_cases h1 : d.val store ≤ (t.ctrl i).val store
    · rw [if_pos h1, if_pos h1]; exact RLe.guard (ih _ _)
    · rw [if_neg h1, if_neg h1]; exact RLe.refl _

theorem seek_chk (t : Map K V) (k : K) : RLe (seek store true E t k) (seek store false E t k) := seekLoop_chk _ _ _ _

theorem findIdx_chk (t : Map K V) (k : K) : RLe (findIdx store true E t k) (findIdx store false E t k) :=
  (probe_chk t k).bind fun _ => RLe.refl _

theorem lookup_chk (t : Map K V) (k : K) : RLe (lookup store true E t k) (lookup store false E t k) :=
  RLe.bind ((findIdx_chk t k).bind fun _ => RLe.refl _) fun _ => RLe.refl _

theorem contains_chk (t : Map K V) (k : K) : RLe (contains store true E t k) (contains store false E t k) :=
  (findIdx_chk t k).bind fun _ => RLe.refl _

theorem atKey_chk (t : Map K V) (k : K) : RLe (atKey store true E t k) (atKey store false E t k) :=
  (findIdx_chk t k).bind fun _ => RLe.refl _

theorem placeLoop_chk (rh : Bool) (p0 : Nat) : ∀ (f : Nat) (t : Map K V) (i : Nat) (r : Ctrl),
    RLe (placeLoop store true rh p0 f t i r) (placeLoop store false rh p0 f t i r) := by
  intro f
  induction f with
  | zero => intro t i r; exact RLe.refl _
  | succ f ih =>
    intro t i r
    unfold placeLoop
    by_cases h1 : (t.ctrl i).isEmpty = true
    · rw [if_pos h1, if_pos h1]; exact RLe.refl _
    · rw [if_neg h1, if_neg h1]
      by_cases h2 : (t.ctrl i).dist < r.dist
      · rw [if_pos h2, if_pos h2]
        simp only
        split
        · exact RLe.refl _
        · exact ih _ _ _
      · rw [if_neg h2, if_neg h2]
        apply RLe.guard
        split
        · exact RLe.refl _
        · exact ih _ _ _

theorem place_chk (rh : Bool) (t : Map K V) (i : Nat) (d : Ctrl) : RLe (place store true rh t i d) (place store false rh t i d) := by
  unfold place
  split
  · split
    · exact RLe.refl _
    · unfold insertToPlace
      cases t.last with
      | none => exact RLe.refl _
      | some n => exact placeLoop_chk _ _ _ _ _ _
  · exact RLe.refl _

theorem insertNoGrow_chk (hash : Nat) (e : K × V) (t : Map K V) :
    RLe (insertNoGrow store true E hash e t) (insertNoGrow store false E hash e t) :=
  (seek_chk t e.1).bind fun _ => (place_chk true t _ _).bind fun _ => RLe.guard (RLe.refl _)

theorem transferAll_chk (old : Map K V) : ∀ (is : List Nat) (t : Map K V),
    RLe (transferAll store true E old is t) (transferAll store false E old is t) := by
  intro is
  induction is with
  | nil => intro t; exact RLe.refl _
  | cons i is ih =>
    intro t
    unfold transferAll
    cases old.slot i with
    | none => exact RLe.refl _
    | some e => exact (insertNoGrow_chk _ e t).bind fun t' => ih t'

theorem rehashImpl_chk (sh al mem : Bool) (n : Nat) (t : Map K V) :
    OLe (rehashImpl store true E sh al mem n t) (rehashImpl store false E sh al mem n t) := by
  unfold rehashImpl
  cases calcCapacity n with
  | ub => exact Or.inl rfl
  | diverge => exact Or.inr rfl
  | ok cap =>
    simp only
    split
    · cases createSlots store mem cap t with
      | ok t1 u =>
        simp only
        rcases transferAll_chk (E := E) (store := store) t (usedIdx store t) t1 with h | h
        · rw [h]; exact Or.inl rfl
        · rw [h]; exact Or.inr rfl
      | throw t' => exact Or.inr rfl
      | diverge => exact Or.inr rfl
      | ub => exact Or.inr rfl
    · exact Or.inr rfl

theorem finish_chk (k : K) (t : Map K V) (i : Nat) (d : Ctrl) : OLe (finish store true E k t i d) (finish store false E k t i d) :=
  OLe.lift (place_chk false t i _) fun _ => OLe.refl _

theorem findOrInsert_chk (mem : Bool) (k : K) (t : Map K V) :
    OLe (findOrInsert store true E mem k t) (findOrInsert store false E mem k t) := by
  unfold findOrInsert
  apply OLe.lift (probe_chk t k)
  intro p
  cases p with
  | hit i => exact OLe.refl _
  | stop i d =>
    simp only
    split
    · exact (rehashImpl_chk false true mem _ t).bind fun t1 _ => OLe.lift (seek_chk t1 k) fun _ => finish_chk k t1 _ _
    · exact finish_chk k t i d

theorem emplaceLoop_chk (update mem : Bool) (k : K) (v : V) : ∀ (f : Nat) (t : Map K V),
    OLe (emplaceLoop store true E update mem k v f t) (emplaceLoop store false E update mem k v f t) := by
  intro f
  induction f with
  | zero => intro t; exact OLe.refl _
  | succ f ih =>
    intro t
    unfold emplaceLoop
    apply (findOrInsert_chk mem k t).bind
    intro t' r
    cases r with
    | exists_ i => exact OLe.refl _
    | notExists i => exact OLe.refl _
    | needGrow => exact (rehashImpl_chk false true mem _ t').bind fun t'' _ => ih t''

theorem exec_chk (rv : Nat → Nat) (mem : Bool) (c : Call K V) (t : Map K V) :
    OLe (exec store true E rv mem c t) (exec store false E rv mem c t) := by
  cases c with
  | insert k v => exact (emplaceLoop_chk false mem k v 64 t).bind fun _ _ => OLe.refl _
  | assign k v => exact (emplaceLoop_chk true mem k v 64 t).bind fun _ _ => OLe.refl _
  | index k v => exact (emplaceLoop_chk false mem k v 64 t).bind fun _ _ => OLe.refl _
  | find k => exact OLe.lift (lookup_chk t k) fun _ => OLe.refl _
  | contains k => exact OLe.lift (contains_chk t k) fun _ => OLe.refl _
  | count k => exact OLe.lift (contains_chk t k) fun _ => OLe.refl _
  | «at» k => exact OLe.lift (atKey_chk t k) fun _ => OLe.refl _
  | erase k => exact OLe.bind (OLe.lift (findIdx_chk t k) fun _ => OLe.refl _) fun _ _ => OLe.refl _
  | size => exact OLe.refl _
  | empty => exact OLe.refl _
  | clear d => exact OLe.refl _
  | reserve n => exact (rehashImpl_chk true false mem _ t).bind fun _ _ => OLe.refl _
  | rehash n => exact (rehashImpl_chk true false mem _ t).bind fun _ _ => OLe.refl _
  | shrink ro => exact (rehashImpl_chk true false mem _ t).bind fun _ _ => OLe.refl _
  | maxLoad x =>
    apply OLe.bind _ fun _ _ => OLe.refl _
    unfold setMlf
    simp only
    split
    · exact rehashImpl_chk true false mem _ _
    · exact OLe.refl _
  | iterate => exact OLe.refl _

theorem run_chk (rv : Nat → Nat) : ∀ (cs : List (Bool × Call K V)) (t : Map K V),
    RLe (run store true E rv cs t) (run store false E rv cs t) := by
  intro cs
  induction cs with
  | nil => intro t; exact RLe.refl _
  | cons c cs ih =>
    intro t
    obtain ⟨mem, c⟩ := c
    unfold run
    rcases exec_chk (E := E) (store := store) rv mem c t with h | h
    · rw [h]; exact Or.inl rfl
    · rw [h]
      cases exec store false E rv mem c t with
      | ub => exact Or.inl rfl
      | diverge => exact Or.inr rfl
      | throw t' => exact Or.inr rfl
      | ok t' a => exact (ih t').bind fun _ => RLe.refl _

end Verif.Robin
