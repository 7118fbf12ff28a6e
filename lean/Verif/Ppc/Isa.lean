import Verif.Asm.Points
import Verif.Arm.Isa
/-!
# The Power instructions used by `src/imp/atomic128/powerpc64.rs`

Registers are the operands of the `asm!` blocks by name (`{dst}` also stands for `{src}`) and the fixed
`r4`…`r9`; two operands are different registers.  An operand of class `reg` (not `reg_nonzero`) may be
`r0`, which some instructions read as the constant zero.  Meanings are those of the Power ISA
(trusted), on a 16-byte object:

* `lq`, `stq` are single accesses; `lqarx` reads the whole object at once and takes the reservation;
  `stqcx.` may fail at any time and succeeds only if nothing was written since the `lqarx`.
  A processor without them (before ISA 2.07) faults.
* They use an even register and the next one; the even one is the more significant half in either byte
  order.
* Comparisons, `or.` and `stqcx.` set a whole condition-register field; the SO bit is copied from XER.
* `sync`, `lwsync`, `isync` have no effect on values (they matter for C40).
-/
set_option autoImplicit false
namespace Verif.Ppc
open Verif.Lf Verif.Asm
open Verif.Arm (addc)

/-- Register operands. -/
inductive Reg where
  | dst | valHi | valLo | oldHi | oldLo | tmpHi | tmpLo | zero
  | r4 | r5 | r6 | r7 | r8 | r9
deriving DecidableEq

/-- A condition-register field. -/
structure Field where
  lt : Bool
  gt : Bool
  eq : Bool
  so : Bool
deriving DecidableEq

/-- Processor state: general registers, the condition register, and from XER the carry and summary
overflow bits. -/
structure St where
  reg : Reg → BitVec 64
  cr0 : Field
  cr1 : Field
  /-- fields 2 to 7 -/
  crRest : BitVec 24
  ca : Bool
  so : Bool

def St.set (s : St) (q : Reg) (x : BitVec 64) : St :=
  { s with reg := fun p => if p = q then x else s.reg p }

/-- The more significant half of the object is in the even register. -/
def join (hi lo : BitVec 64) : BitVec 128 := hi ++ lo

/-- The register after an even register. -/
def Reg.next : Reg → Option Reg
  | .r4 => some .r5
  | .r6 => some .r7
  | .r8 => some .r9
  | _ => none

/-- Barriers. -/
inductive Fence where
  | sync | lwsync | isync
deriving DecidableEq

/-- Instructions. Branch targets are instruction numbers. -/
inductive Ins where
  | fence (k : Fence)
  /-- `lq d, 0(base)` -/
  | lq (d base : Reg)
  /-- `stq d, 0(base)` -/
  | stq (d base : Reg)
  /-- `lqarx d, 0, base` -/
  | lqarx (d base : Reg)
  /-- `stqcx. d, 0, base` -/
  | stqcx (d base : Reg)
  /-- `cmpw a, b` -/
  | cmpw (a b : Reg)
  /-- `cmpld a, b` -/
  | cmpld (a b : Reg)
  /-- `cmpd %cr1, a, b` -/
  | cmpdCr1 (a b : Reg)
  /-- `bne %cr0, t` -/
  | bne (t : Nat)
  | xor (d a b : Reg)
  | and (d a b : Reg)
  | nand (d a b : Reg)
  | or (d a b : Reg)
  /-- `or. d, a, b` -/
  | orDot (d a b : Reg)
  | mfcr (d : Reg)
  | addc (d a b : Reg)
  | adde (d a b : Reg)
  | subc (d a b : Reg)
  | subfe (d a b : Reg)
  /-- `subfic d, a, i` -/
  | subfic (d a : Reg) (i : BitVec 64)
  | subfze (d a : Reg)
  /-- `isel d, a, b, bc` -/
  | isel (d a b : Reg) (bc : Nat)
  /-- Rust's `unreachable!()` -/
  | unreachable
deriving DecidableEq

/-- `isellt d, a, b` is `isel d, a, b, 0`. -/
abbrev Ins.isellt (d a b : Reg) : Ins := .isel d a b 0
/-- `iselgt d, a, b` is `isel d, a, b, 1`. -/
abbrev Ins.iselgt (d a b : Reg) : Ins := .isel d a b 1
/-- `iseleq d, a, b` is `isel d, a, b, 2`. -/
abbrev Ins.iseleq (d a b : Reg) : Ins := .isel d a b 2

/-- Condition-register bit by number, as far as used. -/
def St.crBit (s : St) : Nat → Bool
  | 0 => s.cr0.lt
  | 1 => s.cr0.gt
  | 2 => s.cr0.eq
  | 3 => s.cr0.so
  | 4 => s.cr1.lt
  | 5 => s.cr1.gt
  | 6 => s.cr1.eq
  | 7 => s.cr1.so
  | _ => false

/-- The four bits of a field, most significant first. -/
def Field.bits (f : Field) : BitVec 4 :=
  BitVec.ofBool f.lt ++ BitVec.ofBool f.gt ++ BitVec.ofBool f.eq ++ BitVec.ofBool f.so

/-- The condition register. -/
def St.cr (s : St) : BitVec 32 := s.cr0.bits ++ s.cr1.bits ++ s.crRest

/-- Carry out of an addition. -/
def carry (x y : BitVec 64) (c : Bool) : Bool := decide (2 ^ 64 ≤ x.toNat + y.toNat + c.toNat)

/-- `RA|0`: `r0` as first operand of `isel` or as base of `lq`/`stq` is the constant 0. -/
def St.ra0 (s : St) (r0 : Option Reg) (a : Reg) : BitVec 64 := if r0 = some a then 0 else s.reg a

/-- Instructions on registers and flags only. `r0` is the operand that is in `r0`, if any. -/
def Ins.exec (r0 : Option Reg) (i : Ins) (s : St) : Option St :=
  match i with
  | .fence _ => some s
  | .cmpw a b =>
    let x := (s.reg a).extractLsb' 0 32
    let y := (s.reg b).extractLsb' 0 32
    some { s with cr0 := ⟨x.slt y, y.slt x, x == y, s.so⟩ }
  | .cmpld a b => some { s with cr0 := ⟨(s.reg a).ult (s.reg b), (s.reg b).ult (s.reg a), s.reg a == s.reg b, s.so⟩ }
  | .cmpdCr1 a b => some { s with cr1 := ⟨(s.reg a).slt (s.reg b), (s.reg b).slt (s.reg a), s.reg a == s.reg b, s.so⟩ }
  | .xor d a b => some (s.set d (s.reg a ^^^ s.reg b))
  | .and d a b => some (s.set d (s.reg a &&& s.reg b))
  | .nand d a b => some (s.set d (~~~(s.reg a &&& s.reg b)))
  | .or d a b => some (s.set d (s.reg a ||| s.reg b))
  | .orDot d a b =>
    let x := s.reg a ||| s.reg b
    some { s.set d x with cr0 := ⟨x.slt 0, (0 : BitVec 64).slt x, x == 0, s.so⟩ }
  | .mfcr d => some (s.set d (s.cr.setWidth 64))
  | .addc d a b => some { s.set d (Arm.addc (s.reg a) (s.reg b) false) with ca := carry (s.reg a) (s.reg b) false }
  | .adde d a b => some { s.set d (Arm.addc (s.reg a) (s.reg b) s.ca) with ca := carry (s.reg a) (s.reg b) s.ca }
  | .subc d a b =>
    some { s.set d (Arm.addc (s.reg a) (~~~s.reg b) true) with ca := carry (s.reg a) (~~~s.reg b) true }
  | .subfe d a b =>
    some { s.set d (Arm.addc (s.reg b) (~~~s.reg a) s.ca) with ca := carry (s.reg b) (~~~s.reg a) s.ca }
  | .subfic d a i => some { s.set d (Arm.addc i (~~~s.reg a) true) with ca := carry i (~~~s.reg a) true }
  | .subfze d a => some { s.set d (Arm.addc 0 (~~~s.reg a) s.ca) with ca := carry 0 (~~~s.reg a) s.ca }
  | .isel d a b bc => some (s.set d (if s.crBit bc then s.ra0 r0 a else s.reg b))
  | _ => none

/-- The state after reading `x` into the pair starting at `d`. -/
def St.got (s : St) (d d' : Reg) (x : BitVec 128) : St := (s.set d (X86.hi x)).set d' (X86.lo x)

/-- The meaning of an instruction, for the object at address `addr`, on a processor with or without the
quadword instructions. Accesses to other addresses are faults. -/
def Ins.sem (quad : Bool) (r0 : Option Reg) (addr : BitVec 64) (i : Ins) (s : St) :
    Eff St (BitVec 128) (BitVec 64) :=
  match i with
  | .lq d base =>
    match d.next with
    | some d' =>
      if s.ra0 r0 base = addr ∧ quad = true ∧ d ≠ base ∧ d' ≠ base then
        .acc (.op (.load .relaxed)) fun
          | .val x => s.got d d' x
          | _ => s
      else .fault
    | none => .fault
  | .stq d base =>
    match d.next with
    | some d' =>
      if s.ra0 r0 base = addr ∧ quad = true then
        .acc (.op (.store (join (s.reg d) (s.reg d')) .relaxed)) fun _ => s
      else .fault
    | none => .fault
  | .lqarx d base =>
    match d.next with
    | some d' =>
      if s.reg base = addr ∧ quad = true ∧ d ≠ base ∧ d' ≠ base then .ll fun x => s.got d d' x else .fault
    | none => .fault
  | .stqcx d base =>
    match d.next with
    | some d' =>
      if s.reg base = addr ∧ quad = true then
        .sc (join (s.reg d) (s.reg d')) fun ok => { s with cr0 := ⟨false, false, ok, s.so⟩ }
      else .fault
    | none => .fault
  | .bne t => .br (!s.cr0.eq) t
  | .unreachable => .fault
  | i => match i.exec r0 s with
    | some s' => .go s'
    | none => .fault

end Verif.Ppc
