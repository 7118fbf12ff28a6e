import Verif.WM.Machine
/-!
# Specification: sequentially consistent objects

Nothing in this file models the crate.  A client of weak-memory atomics may keep to `SeqCst` on some
of the objects; the part of the history that concerns those objects is then expected to be that of
plain cells (`Spec/Atomic.lean`): one total order of the operations, which respects real time.
-/
set_option autoImplicit false
namespace Verif

/-- Every ordering argument of the operation is `SeqCst`. -/
def Op.IsSeqCst {V : Type} : Op V → Prop
  | .load o => o = .seqCst
  | .store _ o => o = .seqCst
  | .swap _ o => o = .seqCst
  | .cas _ _ s f => s = .seqCst ∧ f = .seqCst
  | .rmw _ o => o = .seqCst

namespace WM
variable {V X : Type}

/-- Every operation called on an object of `P` is `SeqCst`. -/
def AllSeqCst (P : Obj → Bool) (h : List (Ev V X)) : Prop :=
  ∀ t o op, Ev.inv t o op ∈ h → P o = true → op.IsSeqCst

/-- The calls on objects of `P`, and their returns.  `m t` says that the call in which thread `t` is
engaged is one of them. -/
def only (P : Obj → Bool) (m : Tid → Bool) : List (Ev V X) → List (Verif.Ev V)
  | [] => []
  | .inv t o op :: h =>
    if P o then .inv t o op :: only P (Function.update m t true) h
    else only P (Function.update m t false) h
  | .ret t r :: h => if m t then .ret t r :: only P m h else only P m h
  | .client _ _ _ :: h => only P m h

/-- The history of the objects of `P` within `h`. -/
def history (P : Obj → Bool) (h : List (Ev V X)) : List (Verif.Ev V) := only P (fun _ => false) h

end WM
end Verif
