import Verif.Rv64.Code
/-!
# Specification of the riscv64 back end

A call acts on a plain 128-bit integer, does not fault, and changes no register but those passed to or
declared as outputs of its `asm!` blocks.
-/
set_option autoImplicit false
namespace Verif.Rv64
open Verif.Object Verif.Lf Verif.Wide

/-- Registers a call may use: those of the operands other than the address. -/
def Used (op : WOp) : List Reg :=
  match op with
  | .load => [.a2, .a3]
  | .cas _ _ | .casWeak _ _ => [.a2, .a3, .a4, .a5]
  | _ => [.a2, .a3, .a4, .a5, .outLo, .outHi]

/-- Other registers are left alone, and the address is still in its register. -/
def Preserved (E : Env) (c : Call) (out : St) : Prop :=
  ∀ q, q ∉ Used c.op → out.reg q = (c.st.set E.cfg.base c.addr).reg q

/-- Each call as an operation on one 128-bit integer. -/
def spec (E : Env) : Spec (BitVec 128) Call (Option (Res (BitVec 128) × St)) where
  sem c x y r := ∃ v s, r = some (v, s) ∧ c.op.Sem x y v ∧ Preserved E c s

/-- The program was built for a processor it runs on, and run-time detection reports only what the
processor has (C36). -/
structure Env.Ok (E : Env) : Prop where
  built : E.cfg.zacas = true → E.cpu = true
  detected : E.det = true → E.cpu = true

/-- Zacas is known to be available, at compile time or by detection. -/
def Env.Zacas (E : Env) : Prop := E.cfg.zacas = true ∨ E.det = true

end Verif.Rv64
