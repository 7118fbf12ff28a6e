import Verif.Riscv.Code
/-!
# Specification of the operations of `riscv.rs`
-/
set_option autoImplicit false
namespace Verif.Riscv
open Verif.Object Verif.Wide

variable {L n : Nat}

/-- The operation meant. -/
def Call.meant (c : Call L n) : WOp n :=
  match c.op with
  | .load => .load
  | .store v => .store v
  | .swap v => .swap v
  | .fetchAdd v => .rmw3 .add v
  | .fetchSub v => .rmw3 .sub v
  | .fetchAnd v => .rmw3 .and v
  | .fetchOr v => .rmw3 .or v
  | .fetchXor v => .rmw3 .xor v
  | .fetchNot => .rmw2 .not
  | .fetchMax v => .rmw3 (if c.signed then .max else .umax) v
  | .fetchMin v => .rmw3 (if c.signed then .min else .umin) v

/-- A call acts on a plain integer, or panics when its ordering is not allowed. -/
def spec : Spec (BitVec n) (Call L n) (Res (BitVec n)) where
  sem c x y r := (c.meant.OrdOk c.ord .relaxed ∧ c.meant.Sem x y r) ∨
    (¬ c.meant.OrdOk c.ord .relaxed ∧ y = x ∧ r = .panic)

end Verif.Riscv
