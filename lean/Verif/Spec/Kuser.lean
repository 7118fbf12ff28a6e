import Verif.Kuser.Code
/-!
# Specification of the 64-bit back end of pre-v6 Arm Linux

A call acts on a plain 64-bit integer and does not fault.
-/
set_option autoImplicit false
namespace Verif.Kuser
open Verif.Object Verif.Lf Verif.Wide

/-- Each call as an operation on one 64-bit integer. -/
def spec : Spec (BitVec 64) Call (Option (Res (BitVec 64))) where
  sem c x y r := ∃ v, r = some v ∧ c.op.Sem x y v

/-- The kernel keeps its promise: version 5 or later has the helper. -/
def Env.Ok (E : Env) : Prop := 5 ≤ E.version.toInt → E.helper = true

end Verif.Kuser
