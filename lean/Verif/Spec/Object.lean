import Verif.Spec.Atomic
/-!
# Specification: a shared object with arbitrary operations

Nothing in this file models code.  `Spec C O R` describes a sequential object: its states `C`, its
operations `O`, their results `R`, and for each operation which (new state, result) pairs are
allowed.  A concurrent history is linearizable when every call can be given one indivisible moment
between its invocation and its return at which it acts on the object as the sequential description
says.
-/
namespace Verif.Object

/-- A sequential object: `sem op c c' r` says that `op` may move the state from `c` to `c'` and
return `r`. -/
structure Spec (C O R : Type) where
  sem : O → C → C → R → Prop

/-- Visible events. -/
inductive Ev (O R : Type) where
  | inv (t : Tid) (op : O)
  | ret (t : Tid) (r : R)
deriving DecidableEq

/-- A thread as the specification sees it. -/
inductive Status (O R : Type) where
  | idle
  | pending (op : O)
  | done (r : R)

structure State (C O R : Type) where
  obj : C
  th : Tid → Status O R

variable {C O R : Type}

/-- Steps of the specification; `commit` is the indivisible moment. -/
inductive Step (S : Spec C O R) : State C O R → Option (Ev O R) → State C O R → Prop where
  | inv (s : State C O R) (t op) (h : s.th t = .idle) :
      Step S s (some (.inv t op)) { s with th := Function.update s.th t (.pending op) }
  | commit (s : State C O R) (t op c' r) (h : s.th t = .pending op) (hs : S.sem op s.obj c' r) :
      Step S s none { obj := c', th := Function.update s.th t (.done r) }
  | ret (s : State C O R) (t r) (h : s.th t = .done r) :
      Step S s (some (.ret t r)) { s with th := Function.update s.th t .idle }

/-- The history `h` is linearizable for `S` from state `c`, ending in object state `c'`. -/
def LinearizableTo (S : Spec C O R) (c : C) (h : List (Ev O R)) (c' : C) : Prop :=
  ∃ s, Exec (Step S) { obj := c, th := fun _ => .idle } h s ∧ s.obj = c'

/-- The history `h` is linearizable for `S` from state `c`. -/
def Linearizable (S : Spec C O R) (c : C) (h : List (Ev O R)) : Prop := ∃ c', LinearizableTo S c h c'

/-- Many independent copies of one sequential object, addressed by a name of type `K`. -/
def Spec.many {K : Type} [DecidableEq K] (S : Spec C O R) : Spec (K → C) (K × O) R where
  sem op c c' r := ∃ x, S.sem op.2 (c op.1) x r ∧ c' = Function.update c op.1 x

end Verif.Object
