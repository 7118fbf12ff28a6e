import Verif.Lsfe.Code
/-!
# Specification of the FEAT_LSFE operations

A call acts on the bit pattern of a plain float; it changes no register but the one its result is in.
-/
set_option autoImplicit false
namespace Verif.Lsfe
open Verif.Object Verif.Lf Verif.Float

/-- The register declared as the output: `out("v1")` in the version for old LLVM, else the one chosen for
`out`. -/
def Call.outReg {E : Env} (c : Call E) : BitVec 5 := if E.cfg.preLlvm20 = true then 1 else c.al.out

/-- Each call as an operation on one bit pattern: an operation of the file stores a possible result of the
float operation on the value it replaces, and returns that value; no register changes but the one declared
as output. -/
def spec (E : Env) : Spec (BitVec E.ty.bits) (Call E) (Option (Res (BitVec E.ty.bits) × St E.ty.bits)) where
  sem c x y r := ∃ v s, r = some (v, s) ∧
    match c.what with
    | .inl (b, arg, _) => E.arith.res b x arg y ∧ v = .val x ∧
        (∀ q, q ≠ c.outReg → s.v q = c.entry.v q) ∧ s.x = c.entry.x
    | .inr op => (y, v) = op.onCell x

/-- The ordering of a call of the file's operations. -/
def Call.HasOrd {E : Env} (c : Call E) (o : MemOrd) : Prop := ∃ b v, c.what = .inl (b, v, o)

end Verif.Lsfe
