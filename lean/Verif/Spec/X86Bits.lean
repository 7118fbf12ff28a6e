import Verif.X86.Bits
set_option autoImplicit false
/-!
# Specification: `not`, `neg` and bit operations on objects in byte memory

From the model: the names of types, operations and targets.
-/
namespace Verif.X86.Bits
open Verif.Int Verif.Rv

/-- The operation of the integer specification (`Spec/Int`). -/
def XOp.toI {w : Nat} : XOp → IOp w
  | .un u o => .un u o
  | .bit b n o => .bit b n o

/-- The object of `sz` bytes at `addr` goes from its value to one the operation may produce, with
that answer, and no other byte of memory changes. -/
def ActsOn {L : Nat} (sz : Nat) (addr : BitVec L) (op : XOp) (m m' : Bytes L) (r : IRes (8 * sz)) :
    Prop :=
  ∃ x y, Holds sz m addr x ∧ Holds sz m' addr y ∧ OthersKept sz m m' addr ∧
    Int.Sem false op.toI x y r

end Verif.X86.Bits
