import Verif.Ppc.Code
/-!
# Specification of the PowerPC64 back end

A call acts on a plain 128-bit integer, does not fault, and leaves alone every register and every part
of the condition register and XER its `asm!` operands do not declare as output.
-/
set_option autoImplicit false
namespace Verif.Ppc
open Verif.Object Verif.Lf Verif.Wide

/-- What the compiler may assume about the state at the end of a block. -/
structure Preserved (E : Env) (c : Call) (out : St) : Prop where
  reg : ∀ q, q ∉ (c.block E).outs → out.reg q = (c.entry E).reg q
  cr0 : (c.block E).clobCr0 = false → out.cr0 = c.st.cr0
  cr1 : (c.block E).clobCr1 = false → out.cr1 = c.st.cr1
  rest : out.crRest = c.st.crRest
  xer : (c.block E).clobXer = false → out.ca = c.st.ca
  so : out.so = c.st.so

/-- Each call as an operation on one 128-bit integer. -/
def spec (E : Env) : Spec (BitVec 128) Call (Option (Res (BitVec 128) × St)) where
  sem c x y r := ∃ v s, r = some (v, s) ∧ c.op.Sem x y v ∧ Preserved E c s

/-- The program was built for a processor it runs on, and run-time detection reports only what the
processor has (C36). -/
structure Env.Ok (E : Env) : Prop where
  built : E.cfg.quad = true → E.cpu = true
  detected : E.det = true → E.cpu = true

/-- The quadword instructions are known to be available, at compile time or by detection. -/
def Env.Quad (E : Env) : Prop := E.cfg.quad = true ∨ E.det = true

end Verif.Ppc
