import Verif.S390x.Code
/-!
# Specification of the s390x back end

A call acts on a plain 128-bit integer, does not fault, and leaves alone every register its `asm!`
operands do not declare as output, the program mask, and the condition code where the options say
`preserves_flags`.
-/
set_option autoImplicit false
namespace Verif.S390x
open Verif.Object Verif.Lf Verif.Wide

/-- What the compiler may assume about the state at the end of a block. -/
structure Preserved (E : Env) (c : Call) (out : St) : Prop where
  reg : ∀ q, q ∉ (c.block E).outs c.r → out.reg q = (c.entry E).reg q
  cc : (c.block E).preservesFlags = true → out.cc = c.st.cc
  mask : out.mask = c.st.mask

/-- Each call as an operation on one 128-bit integer. -/
def spec (E : Env) : Spec (BitVec 128) Call (Option (Res (BitVec 128) × St)) where
  sem c x y r := ∃ v s, r = some (v, s) ∧ c.op.Sem x y v ∧ Preserved E c s

/-- The program was built for a processor it runs on. -/
structure Env.Ok (E : Env) : Prop where
  fast : E.cfg.feat.fast = true → E.cpu.fast = true
  distinct : E.cfg.feat.distinct = true → E.cpu.distinct = true
  loc : E.cfg.feat.loc = true → E.cpu.loc = true
  misc3 : E.cfg.feat.misc3 = true → E.cpu.misc3 = true

end Verif.S390x
