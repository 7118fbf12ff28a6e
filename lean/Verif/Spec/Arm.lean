import Verif.Arm.Code
/-!
# Specification of the AArch64 back end

A call acts on a plain 128-bit integer, does not fault, leaves alone every register its `asm!`
operands do not declare as output, and the condition flags where the block says `preserves_flags`.
-/
set_option autoImplicit false
namespace Verif.Arm
open Verif.Object Verif.Lf Verif.Wide

/-- What the compiler may assume about the state at the end of a block. -/
def Preserved (E : Env) (c : Call) (out : St) : Prop :=
  (∀ q, q ∉ (c.block E).outs c.al → out.get q = (c.entry E).get q) ∧
  ((c.block E).preservesFlags = true →
    out.n = c.st.n ∧ out.z = c.st.z ∧ out.c = c.st.c ∧ out.v = c.st.v)

/-- Each call as an operation on one 128-bit integer. -/
def spec (E : Env) : Spec (BitVec 128) Call (Option (Res (BitVec 128) × St)) where
  sem c x y r := ∃ v s, r = some (v, s) ∧ c.op.Sem x y v ∧ Preserved E c s

/-- Is every feature of the first also one of the second? -/
structure Feat.Le (a b : Feat) : Prop where
  lse : a.lse = true → b.lse = true
  lse2 : a.lse2 = true → b.lse2 = true
  lse128 : a.lse128 = true → b.lse128 = true
  rcpc3 : a.rcpc3 = true → b.rcpc3 = true

/-- The program was built for a processor it runs on, and run-time detection reports only features
the processor has (C36). -/
structure Env.Ok (E : Env) : Prop where
  built : E.cfg.feat.Le E.cpu
  detected : E.det.Le E.cpu

end Verif.Arm
