import Verif.Cs.Code
/-!
# Specification: endless runs with critical sections

Endless runs of the machine of `Cs/Code.lean`, and what is assumed of the scheduler and of user code.
-/
set_option autoImplicit false
namespace Verif.Cs
open Verif.Object Verif.Irq
variable {n : Nat} {C : Type} [DecidableEq C]

/-- What context `t` can do: enter or leave a critical section of its own, call, continue an operation, return. -/
inductive StepOf (K : Cfg n C) (t : Tid) : State n C →
    Option (Object.Ev (Obj × Op (Val n C) × Nat) (Res (Val n C) × Nat)) → State n C → Prop where
  | enter (s) (h : s.th t = none) (hf : s.free t) : StepOf K t s none { s with held := Function.update s.held t (s.held t + 1) }
  | leave (s) (h : s.th t = none) : StepOf K t s none { s with held := Function.update s.held t (s.held t - 1) }
  | inv (s) (o op) (h : s.th t = none) :
      StepOf K t s (some (.inv t (o, op, s.held t))) { s with th := Function.update s.th t (some (.start o op)) }
  | act (s) (pc m' held' pc') (h : s.th t = some pc) (ha : Act K t s pc m' held' pc') :
      StepOf K t s none { mem := m', held := held', th := Function.update s.th t (some pc') }
  | ret (s) (r) (h : s.th t = some (.fin r)) : StepOf K t s (some (.ret t (r, s.held t))) { s with th := Function.update s.th t none }

/-- An endless run; at each moment one context makes a step, or nothing happens. -/
structure Endless (K : Cfg n C) (m : Mem n C) (σ : Nat → State n C)
    (e : Nat → Option (Object.Ev (Obj × Op (Val n C) × Nat) (Res (Val n C) × Nat))) (who : Nat → Option Tid) : Prop where
  start : σ 0 = init m
  step : ∀ i, match who i with
    | some t => StepOf K t (σ i) (e i) (σ (i + 1))
    | none => e i = none ∧ σ (i + 1) = σ i

/-- The operation that `t` has called can take a step or return. -/
def CanGo (K : Cfg n C) (t : Tid) (s : State n C) : Prop := s.th t ≠ none ∧ ∃ e s', StepOf K t s e s'

/-- The scheduler is (weakly) fair to operations: one that can go on from some moment on, does. -/
def FairOps (K : Cfg n C) (σ : Nat → State n C) (who : Nat → Option Tid) : Prop :=
  ∀ i t, (∀ j, i ≤ j → CanGo K t (σ j)) → ∃ j, i ≤ j ∧ who j = some t

/-- User code leaves its critical sections: the only way to stay in one for ever is to be stuck in a call. -/
def SectionsEnd (σ : Nat → State n C) : Prop :=
  ∀ i t, (σ i).held t ≠ 0 → ∃ j, i ≤ j ∧ ((σ j).held t = 0 ∨ ∀ k, j ≤ k → (σ k).th t ≠ none)

/-- A call of `t` returns at or after moment `i`. -/
def ReturnsAt (e : Nat → Option (Object.Ev (Obj × Op (Val n C) × Nat) (Res (Val n C) × Nat))) (t : Tid) (i : Nat) : Prop :=
  ∃ j, i ≤ j ∧ ∃ r, e j = some (.ret t r)

/-- At moment `j` context `u`, from outside, enters the critical section. -/
def Enters (σ : Nat → State n C) (u : Tid) (j : Nat) : Prop := (σ j).held u = 0 ∧ (σ (j + 1)).held u ≠ 0

end Verif.Cs
