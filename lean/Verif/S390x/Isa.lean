import Verif.Asm.Points
import Verif.Arm.Isa
/-!
# The z/Architecture instructions used by `src/imp/atomic128/s390x.rs`

Registers are the operands of the `asm!` blocks by name and the fixed `r0`, `r1`, `r4`, `r5`, `r12`,
`r13`; two operands are different registers, except that the late output `{r}` of compare-exchange may
be in the register of an input (`Call.r`).  Meanings are those of the Principles of Operation (trusted),
on a 16-byte object:

* `lpq`, `stpq` and `cdsg` are single accesses; `lg` reads one half.
* The even register of a pair is the more significant half, which is the one at the lower address.
* `r0` as a base register is the constant 0.
* A carry (or the absence of a borrow) is the upper bit of the condition code.
* Instructions of facilities the processor does not have are faults, except `bcr 14, 0`, which is then a
  no-op.  The serialization of `bcr` and `cdsg` has no effect on values (it matters for C42).
-/
set_option autoImplicit false
namespace Verif.S390x
open Verif.Lf Verif.Asm
open Verif.Arm (addc)

/-- Register operands. -/
inductive Reg where
  | dst | valHi | valLo | tmp | zero | r
  | r0 | r1 | r4 | r5 | r12 | r13
deriving DecidableEq

/-- Optional facilities. -/
structure Feat where
  /-- `fast-serialization` -/
  fast : Bool
  /-- `distinct-ops` -/
  distinct : Bool
  /-- `load-store-on-cond` -/
  loc : Bool
  /-- `miscellaneous-extensions-3` -/
  misc3 : Bool

/-- Processor state: general registers, and from the PSW the condition code and the program mask. -/
structure St where
  reg : Reg → BitVec 64
  cc : BitVec 2
  mask : BitVec 4

def St.set (s : St) (q : Reg) (x : BitVec 64) : St :=
  { s with reg := fun p => if p = q then x else s.reg p }

/-- The more significant half of the object is in the even register. -/
def join (hi lo : BitVec 64) : BitVec 128 := hi ++ lo

/-- The register after an even register. -/
def Reg.next : Reg → Option Reg
  | .r0 => some .r1
  | .r4 => some .r5
  | .r12 => some .r13
  | _ => none

/-- Arithmetic instructions that exist in a two- and a three-operand form:
`algr`/`algrk`, `slgr`/`slgrk`, `ngr`/`ngrk`, `ogr`/`ogrk`, `xgr`/`xgrk`. -/
inductive Alu where
  | al | sl | ng | og | xg
deriving DecidableEq

/-- Condition suffixes. -/
inductive Cond where
  | e | l | h | le | he
deriving DecidableEq

/-- Instructions. Branch targets are instruction numbers. -/
inductive Ins where
  | lpq (d base : Reg)
  | stpq (d base : Reg)
  /-- `cdsg d, n, 0(base)` -/
  | cdsg (d n base : Reg)
  /-- `lg d, off(base)` -/
  | lg (d base : Reg) (off : BitVec 64)
  /-- `bcr m, 0` -/
  | bcr (m : Nat)
  | ipm (d : Reg)
  | jl (t : Nat)
  | j (t : Nat)
  /-- `cgrj<cond> a, b, t` -/
  | cgrj (k : Cond) (a b : Reg) (t : Nat)
  /-- `clgrj<cond> a, b, t` -/
  | clgrj (k : Cond) (a b : Reg) (t : Nat)
  | lgr (d a : Reg)
  | lghi (d : Reg) (i : BitVec 64)
  | lcgr (d a : Reg)
  | aghi (d : Reg) (i : BitVec 64)
  /-- `d := d op a` -/
  | alu2 (o : Alu) (d a : Reg)
  /-- `d := a op b` -/
  | alu3 (o : Alu) (d a b : Reg)
  | alcgr (d a : Reg)
  | slbgr (d a : Reg)
  | nngrk (d a b : Reg)
  | cgr (a b : Reg)
  | clgr (a b : Reg)
  /-- `locgr<cond> d, a` -/
  | locgr (k : Cond) (d a : Reg)
  /-- `selgr<cond> d, a, b` -/
  | selgr (k : Cond) (d a b : Reg)
  /-- Rust's `unreachable!()` -/
  | unreachable
deriving DecidableEq

/-- A condition on the condition code of a comparison (0 equal, 1 low, 2 high). -/
def Cond.cc (k : Cond) (cc : BitVec 2) : Bool :=
  match k with
  | .e => cc == 0
  | .l => cc == 1
  | .h => cc == 2
  | .le => cc == 0 || cc == 1
  | .he => cc == 0 || cc == 2

/-- Condition code of a signed comparison. -/
def cmpS (x y : BitVec 64) : BitVec 2 := if x == y then 0 else if x.slt y then 1 else 2

/-- Condition code of an unsigned comparison. -/
def cmpU (x y : BitVec 64) : BitVec 2 := if x == y then 0 else if x.ult y then 1 else 2

/-- Carry out of an addition. -/
def carry (x y : BitVec 64) (c : Bool) : Bool := decide (2 ^ 64 ≤ x.toNat + y.toNat + c.toNat)

/-- Condition code of a logical addition or subtraction: carry, result not zero. -/
def ccCarry (c : Bool) (x : BitVec 64) : BitVec 2 := BitVec.ofBool c ++ BitVec.ofBool (x != 0)

/-- Condition code of a bitwise operation. -/
def ccBits (x : BitVec 64) : BitVec 2 := if x == 0 then 0 else 1

/-- Condition code of signed arithmetic with exact result `z`. -/
def ccSigned (x : BitVec 64) (z : Int) : BitVec 2 :=
  if x.toInt ≠ z then 3 else if x == 0 then 0 else if x.slt 0 then 1 else 2

/-- Result and condition code. -/
def Alu.fn (o : Alu) (x y : BitVec 64) : BitVec 64 × BitVec 2 :=
  match o with
  | .al => (addc x y false, ccCarry (carry x y false) (addc x y false))
  | .sl => (addc x (~~~y) true, ccCarry (carry x (~~~y) true) (addc x (~~~y) true))
  | .ng => (x &&& y, ccBits (x &&& y))
  | .og => (x ||| y, ccBits (x ||| y))
  | .xg => (x ^^^ y, ccBits (x ^^^ y))

/-- The carry recorded in the condition code. -/
def St.carry (s : St) : Bool := s.cc.getLsbD 1

/-- What `ipm` leaves in a register that contained `x`. -/
def ipmOf (cc : BitVec 2) (mask : BitVec 4) (x : BitVec 64) : BitVec 64 :=
  x.extractLsb' 32 32 ++ (0 : BitVec 2) ++ cc ++ mask ++ x.extractLsb' 0 24

/-- Instructions on registers and condition code only. -/
def Ins.exec (f : Feat) (i : Ins) (s : St) : Option St :=
  match i with
  | .bcr _ => some s
  | .ipm d => some (s.set d (ipmOf s.cc s.mask (s.reg d)))
  | .lgr d a => some (s.set d (s.reg a))
  | .lghi d i => some (s.set d i)
  | .lcgr d a => some { s.set d (-s.reg a) with cc := ccSigned (-s.reg a) (-(s.reg a).toInt) }
  | .aghi d i => some { s.set d (s.reg d + i) with cc := ccSigned (s.reg d + i) ((s.reg d).toInt + i.toInt) }
  | .alu2 o d a => some { s.set d (o.fn (s.reg d) (s.reg a)).1 with cc := (o.fn (s.reg d) (s.reg a)).2 }
  | .alu3 o d a b =>
    if f.distinct then some { s.set d (o.fn (s.reg a) (s.reg b)).1 with cc := (o.fn (s.reg a) (s.reg b)).2 }
    else none
  | .alcgr d a => some { s.set d (addc (s.reg d) (s.reg a) s.carry) with
      cc := ccCarry (carry (s.reg d) (s.reg a) s.carry) (addc (s.reg d) (s.reg a) s.carry) }
  | .slbgr d a => some { s.set d (addc (s.reg d) (~~~s.reg a) s.carry) with
      cc := ccCarry (carry (s.reg d) (~~~s.reg a) s.carry) (addc (s.reg d) (~~~s.reg a) s.carry) }
  | .nngrk d a b =>
    if f.misc3 then some { s.set d (~~~(s.reg a &&& s.reg b)) with cc := ccBits (~~~(s.reg a &&& s.reg b)) }
    else none
  | .cgr a b => some { s with cc := cmpS (s.reg a) (s.reg b) }
  | .clgr a b => some { s with cc := cmpU (s.reg a) (s.reg b) }
  | .locgr k d a => if f.loc then some (s.set d (if k.cc s.cc then s.reg a else s.reg d)) else none
  | .selgr k d a b => if f.misc3 then some (s.set d (if k.cc s.cc then s.reg a else s.reg b)) else none
  | _ => none

/-- The state after reading `x` into the pair starting at `d`. -/
def St.got (s : St) (d d' : Reg) (x : BitVec 128) : St := (s.set d (X86.hi x)).set d' (X86.lo x)

/-- Address of an operand `off(base)`. -/
def St.ea (s : St) (base : Reg) (off : BitVec 64) : BitVec 64 :=
  (if base = .r0 then 0 else s.reg base) + off

/-- The state after `cdsg`. -/
def St.swapped (s : St) (d d' : Reg) : Res (BitVec 128) → St
  | .err x => { s.got d d' x with cc := 1 }
  | _ => { s with cc := 0 }

/-- The state after `lg`. -/
def St.half (s : St) (d : Reg) (h : BitVec 128 → BitVec 64) : Res (BitVec 128) → St
  | .val x => s.set d (h x)
  | _ => s

/-- The state after `lpq`. -/
def St.whole (s : St) (d d' : Reg) : Res (BitVec 128) → St
  | .val x => s.got d d' x
  | _ => s

/-- The meaning of an instruction, for the object at address `addr`. Accesses to other addresses are
faults. -/
def Ins.sem (f : Feat) (addr : BitVec 64) (i : Ins) (s : St) : Eff St (BitVec 128) (BitVec 64) :=
  match i with
  | .lpq d base =>
    match d.next with
    | some d' => if s.ea base 0 = addr then .acc (.op (.load .relaxed)) (s.whole d d') else .fault
    | none => .fault
  | .stpq d base =>
    match d.next with
    | some d' =>
      if s.ea base 0 = addr then .acc (.op (.store (join (s.reg d) (s.reg d')) .relaxed)) fun _ => s else .fault
    | none => .fault
  | .cdsg d n base =>
    match d.next, n.next with
    | some d', some n' =>
      if s.ea base 0 = addr then
        .acc (.op (.cas (join (s.reg d) (s.reg d')) (join (s.reg n) (s.reg n')) .relaxed .relaxed)) (s.swapped d d')
      else .fault
    | _, _ => .fault
  | .lg d base off =>
    if s.ea base off = addr then .acc (.op (.load .relaxed)) (s.half d X86.hi)
    else if s.ea base off = addr + 8 then .acc (.op (.load .relaxed)) (s.half d X86.lo)
    else .fault
  | .jl t => .br (s.cc == 1) t
  | .j t => .br true t
  | .cgrj k a b t => .br (k.cc (cmpS (s.reg a) (s.reg b))) t
  | .clgrj k a b t => .br (k.cc (cmpU (s.reg a) (s.reg b))) t
  | .unreachable => .fault
  | i => match i.exec f s with
    | some s' => .go s'
    | none => .fault

end Verif.S390x
