import Verif.Spec.Object
/-!
# Specification: linearizability as Herlihy and Wing define it

M. Herlihy, J. Wing, *Linearizability: a correctness condition for concurrent objects*, TOPLAS 12(3), 1990.

A call is named by its thread `t` and its number `i` among the calls of `t` (from 0).  Nothing here uses the steps of
`Spec/Object.lean`.
-/
set_option autoImplicit false
namespace Verif.Object.HW
open Verif.Object

variable {C O R : Type}

/-- The thread of an event. -/
def tid : Ev O R → Tid
  | .inv t _ => t
  | .ret t _ => t

/-- The events of thread `t`: `H | t`. -/
def proj (t : Tid) (h : List (Ev O R)) : List (Ev O R) := h.filter fun e => tid e == t

/-- Calls and returns alternate, beginning with a call. -/
def Alternates : List (Ev O R) → Prop
  | [] => True
  | [.inv _ _] => True
  | .inv _ _ :: .ret _ _ :: l => Alternates l
  | _ => False

/-- Every thread makes one call at a time. -/
def WellFormed (h : List (Ev O R)) : Prop := ∀ t, Alternates (proj t h)

/-- The calls with their answers, without a last call that has none: `complete(H) | t`, from `H | t`. -/
def answered : List (Ev O R) → List (O × R)
  | .inv _ op :: .ret _ r :: l => (op, r) :: answered l
  | _ => []

/-- Number of returns and of calls of thread `t`. -/
def rets (t : Tid) (h : List (Ev O R)) : Nat := h.countP fun e => match e with | .ret u _ => u == t | _ => false
def invs (t : Tid) (h : List (Ev O R)) : Nat := h.countP fun e => match e with | .inv u _ => u == t | _ => false

/-- Call `a` returns before call `b` is made: `a <_H b`. -/
def Before (h : List (Ev O R)) (a b : Tid × Nat) : Prop :=
  ∃ h1 h2, h = h1 ++ h2 ∧ a.2 < rets a.1 h1 ∧ invs b.1 h1 ≤ b.2

/-- A sequential history: each call followed by its return. -/
def events (q : List (Tid × O × R)) : List (Ev O R) := q.flatMap fun x => [.inv x.1 x.2.1, .ret x.1 x.2.2]

/-- The object allows the sequential history. -/
inductive Legal (S : Spec C O R) : C → List (Tid × O × R) → C → Prop
  | nil (c : C) : Legal S c [] c
  | cons {c c' c'' : C} {t : Tid} {op : O} {r : R} {q} : S.sem op c c' r → Legal S c' q c'' → Legal S c ((t, op, r) :: q) c''

/-- `H` can be extended by returns to `H'` such that `complete(H')` has, thread by thread, the calls and answers of a legal
sequential history `S`, and `<_H ⊆ <_S`.  `c'` is the state after `S`. -/
def LinearizableTo (S : Spec C O R) (c : C) (h : List (Ev O R)) (c' : C) : Prop :=
  ∃ (more : List (Ev O R)) (q : List (Tid × O × R)),
    (∀ e ∈ more, ∃ t r, e = .ret t r) ∧ WellFormed (h ++ more) ∧
    (∀ t, answered (proj t (h ++ more)) = answered (proj t (events q))) ∧ Legal S c q c' ∧
    ∀ a b, Before (h ++ more) a b → Before (events q) a b

end Verif.Object.HW
