import Verif.Spec.Int
import Verif.X86.Code
/-!
# Specification: a shared 128-bit integer

The operations every 128-bit back end provides, on a plain 128-bit integer (and, with another parameter,
the 64-bit back ends of 32-bit targets).  (The operation names
`Op3`, `Op2` are shared with the x86_64 model; nothing else of any model is used.)
-/
set_option autoImplicit false
namespace Verif.Wide
open Verif.Int

export Verif.X86 (Op3 Op2)

/-- What the API asks for. `max`/`min` are the signed, `umax`/`umin` the unsigned versions. -/
inductive WOp (n : Nat := 128) where
  | load
  | store (v : BitVec n)
  | swap (v : BitVec n)
  | cas (old new : BitVec n)
  | casWeak (old new : BitVec n)
  | rmw3 (o : Op3) (v : BitVec n)
  | rmw2 (o : Op2)

/-- May the operation take the integer from `x` to `y` and return `r`? -/
def WOp.Sem {n : Nat} (b : WOp n) (x y : BitVec n) (r : Res (BitVec n)) : Prop :=
  match b with
  | .load => y = x ∧ r = .val x
  | .store v => y = v ∧ r = .unit
  | .swap v => y = v ∧ r = .val x
  | .cas c n => (x = c ∧ y = n ∧ r = .ok x) ∨ (x ≠ c ∧ y = x ∧ r = .err x)
  | .casWeak c n => (x = c ∧ y = n ∧ r = .ok x) ∨ (y = x ∧ r = .err x)
  | .rmw3 .add v => Bin.Post .add x v y ∧ r = .val x
  | .rmw3 .sub v => Bin.Post .sub x v y ∧ r = .val x
  | .rmw3 .and v => Bin.Post .and x v y ∧ r = .val x
  | .rmw3 .or v => Bin.Post .or x v y ∧ r = .val x
  | .rmw3 .xor v => Bin.Post .xor x v y ∧ r = .val x
  | .rmw3 .nand v => BinF.Post false .nand x v y ∧ r = .val x
  | .rmw3 .max v => BinF.Post true .max x v y ∧ r = .val x
  | .rmw3 .umax v => BinF.Post false .max x v y ∧ r = .val x
  | .rmw3 .min v => BinF.Post true .min x v y ∧ r = .val x
  | .rmw3 .umin v => BinF.Post false .min x v y ∧ r = .val x
  | .rmw2 .not => Un.Post .not x y ∧ r = .val x
  | .rmw2 .neg => Un.Post .neg x y ∧ r = .val x

/-- The value argument (the new value of a compare-exchange). -/
def WOp.arg {n : Nat} : WOp n → BitVec n
  | .store v | .swap v | .rmw3 _ v => v
  | .cas _ n | .casWeak _ n => n
  | .load | .rmw2 _ => 0

/-- The expected value of a compare-exchange. -/
def WOp.old {n : Nat} : WOp n → BitVec n
  | .cas c _ | .casWeak c _ => c
  | _ => 0

/-- Orderings the API accepts without panicking (the second is the failure ordering of a
compare-exchange). -/
def WOp.OrdOk {n : Nat} (b : WOp n) (o f : MemOrd) : Prop :=
  match b with
  | .load => o ≠ .release ∧ o ≠ .acqRel
  | .store _ => o ≠ .acquire ∧ o ≠ .acqRel
  | .cas _ _ | .casWeak _ _ => f ≠ .release ∧ f ≠ .acqRel
  | _ => True

end Verif.Wide
