import Verif.X86.Code
import Verif.Spec.Int
/-!
# Specification of the 128-bit blocks

A block acts on a plain 128-bit integer and leaves alone every register its `asm!` operands do not
declare as output or clobbered (in particular `rbx`, which LLVM reserves, and the address).
-/
namespace Verif.X86
open Verif.Object Verif.Lf Verif.Int

/-- The integer operation a block is to perform (`IOp`'s meaning is `Verif.Int.Sem`), and whether the
type is signed where that matters. -/
def Block.Sem (b : Block) (x y : BitVec 128) (r : Res (BitVec 128)) : Prop :=
  match b with
  | .loadCx | .loadV => y = x ∧ r = .val x
  | .storeV v _ => y = v ∧ r = .unit
  | .swap v => y = v ∧ r = .val x
  | .cas c n => (x = c ∧ y = n ∧ r = .ok x) ∨ (x ≠ c ∧ y = x ∧ r = .err x)
  | .rmw3 .add v => Bin.Post .add x v y ∧ r = .val x
  | .rmw3 .sub v => Bin.Post .sub x v y ∧ r = .val x
  | .rmw3 .and v => Bin.Post .and x v y ∧ r = .val x
  | .rmw3 .or v => Bin.Post .or x v y ∧ r = .val x
  | .rmw3 .xor v => Bin.Post .xor x v y ∧ r = .val x
  | .rmw3 .nand v => BinF.Post false .nand x v y ∧ r = .val x
  | .rmw3 .max v => BinF.Post true .max x v y ∧ r = .val x
  | .rmw3 .umax v => BinF.Post false .max x v y ∧ r = .val x
  | .rmw3 .min v => BinF.Post true .min x v y ∧ r = .val x
  | .rmw3 .umin v => BinF.Post false .min x v y ∧ r = .val x
  | .rmw2 .not => Un.Post .not x y ∧ r = .val x
  | .rmw2 .neg => Un.Post .neg x y ∧ r = .val x

/-- Registers at exit agree with those at entry except for declared outputs. -/
def Preserved (c : Call) (out : Regs) : Prop :=
  (∀ r, r ∉ c.block.outs c.conv →
    out.get r = (c.block.entry c.conv c.addr c.regs).get r) ∧
  (c.block.xmmOut = false → out.xmm = (c.block.entry c.conv c.addr c.regs).xmm)

/-- Each block as an operation on one 128-bit integer. -/
def spec : Spec (BitVec 128) Call (Res (BitVec 128) × Regs) where
  sem c x y r := c.block.Sem x y r.1 ∧ Preserved c r.2

end Verif.X86
