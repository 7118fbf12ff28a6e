import Verif.Asm.Points
import Verif.X86.Code
/-!
# The AArch64 instructions used by `src/imp/atomic128/aarch64.rs`

Registers are the operands of the `asm!` blocks, by name (`{dst}`, `{prev_lo}`, …) and the fixed
`x0`…`x8`; two operands are different registers, except that the outputs declared `lateout` may share
a register with an input (`Alias` in `Arm.Code`).  Meanings are those of the Arm Architecture Reference
Manual (trusted), on a 16-byte object:

* `ldp`, `stp` access the object at once only on a processor with FEAT_LSE2; without it, `ldp` may
  return anything (in particular a torn value) and `stp` is counted as a fault.
* `ldxp` takes the reservation and reads the two words separately, in either order.
* `stxp` may fail at any time; it succeeds only if nothing was written since the `ldxp`.
* `casp`, `swpp`, `ldclrp`, `ldsetp`, `ldiapp`, `stilp` are single accesses; a processor without
  the feature faults.
* In all of them the first register is the word at the lower address.
* Acquire/release and `dmb` have no effect on values (they matter for C38).
-/
set_option autoImplicit false
namespace Verif.Arm
open Verif.Lf Verif.Asm

/-- Register operands. -/
inductive Reg where
  | dst | outLo | outHi | tmp | oldLo | oldHi | newLo | newHi | prevLo | prevHi | tmpLo | tmpHi
  | r | valLo | valHi | x0 | x1 | x2 | x3 | x4 | x5 | x6 | x7 | x8 | xzr
deriving DecidableEq

/-- Processor state: general registers and the condition flags. -/
structure St where
  reg : Reg → BitVec 64
  n : Bool
  z : Bool
  c : Bool
  v : Bool

/-- `xzr` reads as zero. -/
def St.get (s : St) (q : Reg) : BitVec 64 := if q = .xzr then 0 else s.reg q

/-- A write to `xzr` is lost (`St.get` does not look at it). -/
def St.set (s : St) (q : Reg) (x : BitVec 64) : St :=
  { s with reg := fun p => if p = q then x else s.reg p }

/-- Byte order. -/
inductive Endian where
  | little | big
deriving DecidableEq

/-- The word of a 16-byte integer at the lower (`false`) or higher (`true`) address. -/
def word (e : Endian) (x : BitVec 128) (b : Bool) : BitVec 64 :=
  match e, b with
  | .little, false | .big, true => X86.lo x
  | .little, true | .big, false => X86.hi x

/-- The 16-byte integer with the given words at the lower and the higher address. -/
def join (e : Endian) (a b : BitVec 64) : BitVec 128 :=
  match e with
  | .little => b ++ a
  | .big => a ++ b

/-- Optional features of a processor. -/
structure Feat where
  lse : Bool
  lse2 : Bool
  lse128 : Bool
  rcpc3 : Bool
deriving DecidableEq

/-- Condition codes. -/
inductive Cond where
  | eq | lt | ge | lo | hs
deriving DecidableEq

/-- Does the condition hold? -/
def Cond.holds (s : St) : Cond → Bool
  | .eq => s.z
  | .lt => s.n != s.v
  | .ge => s.n == s.v
  | .lo => !s.c
  | .hs => s.c

/-- FEAT_LSE128 instructions. -/
inductive Pair128 where
  | swpp | ldclrp | ldsetp
deriving DecidableEq

/-- Barriers. -/
inductive Dmb where
  | ish | ishld
deriving DecidableEq

/-- Instructions. Branch targets are instruction numbers. -/
inductive Ins where
  | ldp (a b base : Reg)
  | ldar (d base : Reg)
  | ldiapp (a b base : Reg)
  | stp (a b base : Reg)
  | stilp (a b base : Reg)
  | ldxp (acq : Bool) (a b base : Reg)
  | stxp (rel : Bool) (w a b base : Reg)
  | casp (acq rel : Bool) (s1 s2 t1 t2 base : Reg)
  | pair (k : Pair128) (acq rel : Bool) (a b base : Reg)
  /-- an encoded instruction -/
  | inst (w : BitVec 32)
  | dmb (k : Dmb)
  | mov (d a : Reg)
  | adds (d a b : Reg)
  | adc (d a b : Reg)
  | subs (d a b : Reg)
  | sbc (d a b : Reg)
  | sbcs (d a b : Reg)
  | and (d a b : Reg)
  | orr (d a b : Reg)
  | eor (d a b : Reg)
  | mvn (d a : Reg)
  /-- `ccmp a, b, #0, cond` -/
  | ccmp (a b : Reg) (cond : Cond)
  | csel (d a b : Reg) (cond : Cond)
  | cbnz (w : Reg) (t : Nat)
  | bne (t : Nat)
  /-- Rust's `unreachable!()` -/
  | unreachable
deriving DecidableEq

/-- `cmp a, b` is `subs xzr, a, b`. -/
abbrev Ins.cmp (a b : Reg) : Ins := .subs .xzr a b
/-- `negs d, a` is `subs d, xzr, a`. -/
abbrev Ins.negs (d a : Reg) : Ins := .subs d .xzr a
/-- `ngc d, a` is `sbc d, xzr, a`. -/
abbrev Ins.ngc (d a : Reg) : Ins := .sbc d .xzr a

/-- The value of a carry. -/
def bit (c : Bool) : BitVec 64 := if c then 1 else 0

/-- `AddWithCarry` of the manual: the sum. -/
def addc (x y : BitVec 64) (c : Bool) : BitVec 64 := x + y + bit c

/-- `AddWithCarry` of the manual: the flags. -/
def St.addFlags (s : St) (x y : BitVec 64) (c : Bool) : St :=
  { s with
    n := (addc x y c).msb
    z := decide (addc x y c = 0)
    c := decide (2 ^ 64 ≤ x.toNat + y.toNat + c.toNat)
    v := decide ((addc x y c).toInt ≠ x.toInt + y.toInt + c.toNat) }

/-- Instructions on registers and flags only. -/
def Ins.exec (i : Ins) (s : St) : Option St :=
  match i with
  | .dmb _ => some s
  | .mov d a => some (s.set d (s.get a))
  | .adds d a b => some ((s.addFlags (s.get a) (s.get b) false).set d (addc (s.get a) (s.get b) false))
  | .adc d a b => some (s.set d (addc (s.get a) (s.get b) s.c))
  | .subs d a b =>
    some ((s.addFlags (s.get a) (~~~s.get b) true).set d (addc (s.get a) (~~~s.get b) true))
  | .sbc d a b => some (s.set d (addc (s.get a) (~~~s.get b) s.c))
  | .sbcs d a b =>
    some ((s.addFlags (s.get a) (~~~s.get b) s.c).set d (addc (s.get a) (~~~s.get b) s.c))
  | .and d a b => some (s.set d (s.get a &&& s.get b))
  | .orr d a b => some (s.set d (s.get a ||| s.get b))
  | .eor d a b => some (s.set d (s.get a ^^^ s.get b))
  | .mvn d a => some (s.set d (~~~s.get a))
  | .ccmp a b cond =>
    some (if cond.holds s then s.addFlags (s.get a) (~~~s.get b) true
      else { s with n := false, z := false, c := false, v := false })
  | .csel d a b cond => some (s.set d (if cond.holds s then s.get a else s.get b))
  | _ => none

/-- The register with a given number, as far as encoded instructions use it. -/
def Reg.ofNum (n : BitVec 5) : Option Reg :=
  match n with
  | 0#5 => some .x0
  | 1#5 => some .x1
  | 2#5 => some .x2
  | 3#5 => some .x3
  | 4#5 => some .x4
  | 5#5 => some .x5
  | 6#5 => some .x6
  | 7#5 => some .x7
  | 8#5 => some .x8
  | _ => none

/-- Decoder for the instructions the crate writes as `.inst` words.  From the manual:
`SWPP/LDCLRP/LDSETP Xt1, Xt2, [Xn]`: `00011001 A R 1 Rt2 o3 opc 00 Rn Rt` (bit 23 acquire, bit 22
release; `o3 opc` = 1 000, 0 001, 0 011);
`LDIAPP Xt1, Xt2, [Xn]`: `11 011001 01 0 Rt2 0001 10 Rn Rt` (no write-back);
`STILP Xt1, Xt2, [Xn]`: `11 011001 00 0 Rt2 0001 10 Rn Rt` (no write-back). -/
def decode (w : BitVec 32) : Option Ins :=
  match Reg.ofNum (w.extractLsb' 0 5), Reg.ofNum (w.extractLsb' 16 5),
    Reg.ofNum (w.extractLsb' 5 5) with
  | some a, some b, some base =>
    if w.extractLsb' 24 8 = 0x19#8 ∧ w.extractLsb' 21 1 = 1#1 ∧ w.extractLsb' 10 2 = 0#2 then
      let k := match w.extractLsb' 12 4 with
        | 0x8#4 => some Pair128.swpp
        | 0x1#4 => some Pair128.ldclrp
        | 0x3#4 => some Pair128.ldsetp
        | _ => none
      k.map fun k => .pair k (w.getLsbD 23) (w.getLsbD 22) a b base
    else if w.extractLsb' 21 11 = 0b11011001010#11 ∧ w.extractLsb' 10 6 = 0b000110#6 then
      some (.ldiapp a b base)
    else if w.extractLsb' 21 11 = 0b11011001000#11 ∧ w.extractLsb' 10 6 = 0b000110#6 then
      some (.stilp a b base)
    else none
  | _, _, _ => none

/-- Are the two registers an even/odd pair (needed by `casp`)? -/
def evenOdd : Reg → Reg → Bool
  | .x0, .x1 | .x2, .x3 | .x4, .x5 | .x6, .x7 => true
  | _, _ => false

/-- The state after a read into a register pair. -/
def St.got (s : St) (e : Endian) (a b : Reg) : Res (BitVec 128) → St
  | .val x | .ok x | .err x => (s.set a (word e x false)).set b (word e x true)
  | _ => s

/-- What an FEAT_LSE128 instruction stores. -/
def Pair128.fn (k : Pair128) (v x : BitVec 128) : BitVec 128 :=
  match k with
  | .swpp => v
  | .ldclrp => x &&& ~~~v
  | .ldsetp => x ||| v

/-- The meaning of an instruction that is not an `.inst` word, for the object at address `addr`,
on a processor with features `f`.  Accesses to other addresses are faults. -/
def Ins.eff (f : Feat) (e : Endian) (addr : BitVec 64) (i : Ins) (s : St) :
    Eff St (BitVec 128) (BitVec 64) :=
  match i with
  | .ldp a b base =>
    if s.get base = addr ∧ a ≠ b then
      .acc (if f.lse2 then .op (.load .relaxed) else .peek) (s.got e a b)
    else .fault
  | .ldar d base =>
    if s.get base = addr then
      .acc (.op (.load .acquire)) fun
        | .val x => s.set d (word e x false)
        | _ => s
    else .fault
  | .ldiapp a b base =>
    if s.get base = addr ∧ a ≠ b ∧ f.lse2 ∧ f.rcpc3 then .acc (.op (.load .acquire)) (s.got e a b)
    else .fault
  | .stp a b base =>
    if s.get base = addr ∧ f.lse2 then .acc (.op (.store (join e (s.get a) (s.get b)) .relaxed)) fun _ => s
    else .fault
  | .stilp a b base =>
    if s.get base = addr ∧ f.lse2 ∧ f.rcpc3 then
      .acc (.op (.store (join e (s.get a) (s.get b)) .release)) fun _ => s
    else .fault
  | .ldxp _ a b base =>
    if s.get base = addr ∧ a ≠ b then .ll2 (word e) fun w0 w1 => (s.set a w0).set b w1 else .fault
  | .stxp _ w a b base =>
    if s.get base = addr ∧ w ≠ a ∧ w ≠ b ∧ w ≠ base then
      .sc (join e (s.get a) (s.get b)) fun ok => s.set w (if ok then 0 else 1)
    else .fault
  | .casp _ _ s1 s2 t1 t2 base =>
    if s.get base = addr ∧ f.lse ∧ evenOdd s1 s2 ∧ evenOdd t1 t2 then
      .acc (.op (.cas (join e (s.get s1) (s.get s2)) (join e (s.get t1) (s.get t2)) .relaxed .relaxed))
        (s.got e s1 s2)
    else .fault
  | .pair k _ _ a b base =>
    if s.get base = addr ∧ f.lse128 ∧ a ≠ b ∧ a ≠ .xzr ∧ b ≠ .xzr then
      .acc (.op (.rmw (k.fn (join e (s.get a) (s.get b))) .relaxed)) (s.got e a b)
    else .fault
  | .cbnz w t => .br (decide ((s.get w).extractLsb' 0 32 ≠ 0)) t
  | .bne t => .br (!s.z) t
  | .inst _ | .unreachable => .fault
  | i => match i.exec s with
    | some s' => .go s'
    | none => .fault

/-- The meaning of an instruction. -/
def Ins.sem (f : Feat) (e : Endian) (addr : BitVec 64) (i : Ins) (s : St) :
    Eff St (BitVec 128) (BitVec 64) :=
  match i with
  | .inst w => match decode w with
    | some j => j.eff f e addr s
    | none => .fault
  | i => i.eff f e addr s

end Verif.Arm
