import Verif.ArmLinux.Code
/-!
# Specification of narrow atomics on Arm Linux before v6
-/
set_option autoImplicit false
namespace Verif.ArmLinux
open Verif.Lf Verif.Object

variable {V : Type} [DecidableEq V]

/-- The operation asked for. A weak compare-exchange may fail for no reason. Invalid orderings panic
(`Op.onCell`). -/
def spec : Spec V (Call V) (Res V) where
  sem c x y r := match c with
    | .load o => (y, r) = (Op.load o).onCell x
    | .store v o => (y, r) = (Op.store v o).onCell x
    | .cas false old new s f => (y, r) = (Op.cas old new s f).onCell x
    | .cas true old new s f => (y, r) = (Op.cas old new s f).onCell x ∨
        ((Op.cas old new s f).ordOk = true ∧ y = x ∧ r = .err x)
    | .swap v o => (y, r) = (Op.swap v o).onCell x
    | .rmw f o => (y, r) = (Op.rmw f o).onCell x

/-- Does this call, with this outcome, ask for acquire? -/
def Call.AsksAcquire (c : Call V) (r : Res V) : Prop :=
  match c with
  | .load o | .swap _ o | .rmw _ o => Arm.Acquiring o
  | .store _ _ => False
  | .cas _ _ _ s f => (Arm.Acquiring s ∧ ∃ x, r = .ok x) ∨ (Arm.Acquiring f ∧ ∃ x, r = .err x)

/-- For release? -/
def Call.AsksRelease (c : Call V) : Prop :=
  match c with
  | .load _ => False
  | .store _ o | .swap _ o | .rmw _ o | .cas _ _ _ o _ => Arm.Releasing o

/-- For sequential consistency? -/
def Call.AsksSeqCst (c : Call V) (r : Res V) : Prop :=
  match c with
  | .load o | .store _ o | .swap _ o | .rmw _ o => o = .seqCst
  | .cas _ _ _ s f => (s = .seqCst ∧ ∃ x, r = .ok x) ∨ (f = .seqCst ∧ ∃ x, r = .err x)

end Verif.ArmLinux
