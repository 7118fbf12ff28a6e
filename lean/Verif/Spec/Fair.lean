import Verif.Spec.Atomic
/-!
# Specification: endless runs and fairness

Nothing in this file models the crate. An endless history is a function from moments to what is visible at them (a call, a return, or nothing).
-/
set_option autoImplicit false
namespace Verif

/-- At moment `i` the latest call of thread `t`, on object `o`, made before, has not returned yet. -/
def Pending {V : Type} (e : Nat → Option (Ev V)) (t : Tid) (o : Obj) (i : Nat) : Prop :=
  ∃ k, k < i ∧ (∃ op, e k = some (.inv t o op)) ∧ ∀ j, k < j → j < i → ∀ r, e j ≠ some (.ret t r)

/-- The scheduler (`who` says whose step each one is) stops no thread for ever in the middle of a call. -/
def Fair {V : Type} (e : Nat → Option (Ev V)) (who : Nat → Tid) : Prop :=
  ∀ i t o, Pending e t o i → ∃ j, i ≤ j ∧ who j = t

/-- The call that thread `t` has open at moment `i` returns. -/
def Returns {V : Type} (e : Nat → Option (Ev V)) (t : Tid) (i : Nat) : Prop :=
  ∃ j, i ≤ j ∧ ∃ r, e j = some (.ret t r)

/-- Infinitely many calls on objects with `P` return. -/
def ReturnForever {V : Type} (e : Nat → Option (Ev V)) (P : Obj → Prop) : Prop :=
  ∀ n, ∃ j, n ≤ j ∧ ∃ u o r, P o ∧ Pending e u o j ∧ e j = some (.ret u r)

end Verif
