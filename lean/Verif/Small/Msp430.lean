import Verif.Int.Code
/-!
# The single-instruction operations of MSP430 (`src/imp/msp430.rs`)

One instruction on a memory operand of 8 (`.b`) or 16 (`.w`) bits and the status register.  Semantics of the
instructions: MSP430x5xx and MSP430x6xx Family User's Guide (SLAU208), section 6.6.2; `inv dst` is `xor #-1, dst`.
The status register holds C (bit 0), Z (bit 1), N (bit 2), GIE (bit 3), ..., V (bit 8).
-/
set_option autoImplicit false
namespace Verif.Small
open Verif.Int

/-- Two-operand instructions. -/
inductive Alu where
  | mov | add | sub | and | bis | xor
deriving DecidableEq

/-- The status register with the computation flags replaced. -/
def withFlags (sr : BitVec 16) (v n z c : Bool) : BitVec 16 :=
  (sr &&& ~~~0x107#16) ||| (BitVec.ofBool v).setWidth 16 <<< 8 ||| (BitVec.ofBool n).setWidth 16 <<< 2 |||
    (BitVec.ofBool z).setWidth 16 <<< 1 ||| (BitVec.ofBool c).setWidth 16

/-- `op src, dst`: the new `dst` and the new status register. -/
def Alu.exec {w : Nat} (op : Alu) (src dst : BitVec w) (sr : BitVec 16) : BitVec w × BitVec 16 :=
  match op with
  | .mov => (src, sr)
  | .bis => (src ||| dst, sr)
  | .add =>
    let r := src + dst
    (r, withFlags sr (src.msb == dst.msb && r.msb != src.msb) r.msb (r == 0)
      (decide (2 ^ w ≤ src.toNat + dst.toNat)))
  | .sub =>
    let r := ~~~src + 1 + dst
    (r, withFlags sr (src.msb != dst.msb && r.msb != dst.msb) r.msb (r == 0)
      (decide (2 ^ w ≤ (~~~src).toNat + 1 + dst.toNat)))
  | .and =>
    let r := src &&& dst
    (r, withFlags sr false r.msb (r == 0) (r != 0))
  | .xor =>
    let r := src ^^^ dst
    (r, withFlags sr (src.msb && dst.msb) r.msb (r == 0) (r != 0))

/-- The instruction of an operation. -/
inductive Ins (w : Nat) where
  /-- `mov @src, out` -/
  | ld
  /-- `op val, 0(dst)` -/
  | alu (op : Alu) (val : BitVec w)
  /-- `inv 0(dst)` -/
  | inv

/-- Memory, status register, output register after it. -/
def Ins.exec {w : Nat} (i : Ins w) (m : BitVec w) (sr : BitVec 16) : BitVec w × BitVec 16 × Option (BitVec w) :=
  match i with
  | .ld => (m, sr, some m)
  | .alu op val => ((op.exec val m sr).1, (op.exec val m sr).2, none)
  | .inv => ((Alu.exec .xor (~~~0) m sr).1, (Alu.exec .xor (~~~0) m sr).2, none)

/-- An `asm!` block of one instruction; `flagsKept`: it says `preserves_flags`. -/
structure Block (w : Nat) where
  ins : Ins w
  flagsKept : Bool

/-- The methods of `msp430.rs`: L85-L110 `load`, L113-L137 `store`, L143-L163 `add`, L165-L185 `sub`, L187-L207
`and`, L209-L228 `or`, L230-L250 `xor`, L252-L271 `not`.  The ordering assertions of the first two (L91, L119) are
made before.  There is no other single-instruction method. -/
def msp430Block {w : Nat} : IOp w → Option (Block w)
  | .load _ => some ⟨.ld, true⟩
  | .store v _ => some ⟨.alu .mov v, true⟩
  | .bin .add v _ => some ⟨.alu .add v, false⟩
  | .bin .sub v _ => some ⟨.alu .sub v, false⟩
  | .bin .and v _ => some ⟨.alu .and v, false⟩
  | .bin .or v _ => some ⟨.alu .bis v, true⟩
  | .bin .xor v _ => some ⟨.alu .xor v, false⟩
  | .un .not _ => some ⟨.inv, false⟩
  | _ => none

end Verif.Small
