import Verif.Asm.Points
import Verif.X86.Arith
/-!
# The RISC-V instructions used by `src/imp/atomic128/riscv64.rs`

Registers are the operands of the `asm!` blocks by name and the fixed `a0`, `a2`..`a5`.  Meanings are
those of the RISC-V manual and its Zacas chapter (trusted), on a 16-byte object of this little-endian
architecture:

* `amocas.q` is a single access; the even register of a pair is the less significant half.
* `ld` reads one half.
* `amocas.q` on a processor without Zacas is a fault.
* The meaning of a `.4byte` word is that of the instruction it encodes.

The read-modify-write functions are Rust loops around two `asm!` blocks.  The Rust statements are
instructions of their own here, on two local variables.
-/
set_option autoImplicit false
namespace Verif.Rv64
open Verif.Lf Verif.Asm

/-- Register operands. -/
inductive Reg where
  | ptr | outLo | outHi
  | a0 | a2 | a3 | a4 | a5
deriving DecidableEq

/-- Registers and Rust's local variables `prev` (the expected value, called `old` in
`atomic_compare_exchange`) and `got` (the value the compare-exchange returned). -/
structure St where
  reg : Reg → BitVec 64
  prev : BitVec 128
  got : BitVec 128

def St.set (s : St) (q : Reg) (x : BitVec 64) : St :=
  { s with reg := fun p => if p = q then x else s.reg p }

/-- `U128 { pair: Pair { lo, hi } }.whole`. -/
def join (lo hi : BitVec 64) : BitVec 128 := hi ++ lo

/-- The register after an even register. -/
def Reg.next : Reg → Option Reg
  | .a2 => some .a3
  | .a4 => some .a5
  | _ => none

/-- Instructions. Branch targets are instruction numbers. -/
inductive Ins where
  /-- `fence rw,rw` -/
  | fence
  /-- an empty line -/
  | empty
  /-- `amocas.q{.aq}{.rl} d, n, 0(base)` -/
  | amocas (aq rl : Bool) (d n base : Reg)
  /-- `.4byte w` -/
  | word (w : BitVec 32)
  /-- `ld d, off(base)` -/
  | ld (d base : Reg) (off : BitVec 64)
  /-- Rust: `prev = U128 { lo, hi }` -/
  | setPrev (lo hi : Reg)
  /-- Rust: pass `prev` in `a4`, `a5` and `f(prev)` in `a2`, `a3` -/
  | pass (f : BitVec 128 → BitVec 128)
  /-- Rust: `got = U128 { lo, hi }` -/
  | setGot (lo hi : Reg)
  /-- Rust: go to `t` if `got == prev` -/
  | ifSame (t : Nat)
  /-- Rust: `prev = got` -/
  | retry
  | jump (t : Nat)
  /-- Rust's `unreachable!()` -/
  | unreachable

/-- Registers by number. -/
def regOf (n : BitVec 5) : Option Reg :=
  if n = 10 then some .a0 else if n = 12 then some .a2 else if n = 13 then some .a3
  else if n = 14 then some .a4 else if n = 15 then some .a5 else none

/-- Decoder for `amocas.q`: funct5 `00101`, aq, rl, rs2, rs1, funct3 `100`, rd, opcode `0101111`. -/
def decode (w : BitVec 32) : Option Ins :=
  if w.extractLsb' 27 5 = 0b00101#5 ∧ w.extractLsb' 12 3 = 0b100#3 ∧ w.extractLsb' 0 7 = 0b0101111#7 then
    match regOf (w.extractLsb' 7 5), regOf (w.extractLsb' 20 5), regOf (w.extractLsb' 15 5) with
    | some d, some n, some b => some (.amocas (w.getLsbD 26) (w.getLsbD 25) d n b)
    | _, _, _ => none
  else none

/-- The state after `amocas.q`: the old value in both cases. -/
def St.swapped (s : St) (d d' : Reg) : Res (BitVec 128) → St
  | .ok x | .err x => (s.set d (X86.lo x)).set d' (X86.hi x)
  | _ => s

/-- The state after `ld`. -/
def St.half (s : St) (d : Reg) (h : BitVec 128 → BitVec 64) : Res (BitVec 128) → St
  | .val x => s.set d (h x)
  | _ => s

/-- `amocas.q d, n, 0(base)`, for the object at `addr`. -/
def amocasSem (zacas : Bool) (addr : BitVec 64) (d n base : Reg) (s : St) : Eff St (BitVec 128) (BitVec 64) :=
  match d.next, n.next with
  | some d', some n' =>
    if zacas = true ∧ s.reg base = addr then
      .acc (.op (.cas (join (s.reg d) (s.reg d')) (join (s.reg n) (s.reg n')) .relaxed .relaxed)) (s.swapped d d')
    else .fault
  | _, _ => .fault

/-- The meaning of an instruction, for the object at address `addr`. Accesses to other addresses are
faults. -/
def Ins.sem (zacas : Bool) (addr : BitVec 64) (i : Ins) (s : St) : Eff St (BitVec 128) (BitVec 64) :=
  match i with
  | .fence | .empty => .go s
  | .amocas _ _ d n base => amocasSem zacas addr d n base s
  | .word w => match decode w with
    | some (.amocas _ _ d n base) => amocasSem zacas addr d n base s
    | _ => .fault
  | .ld d base off =>
    if s.reg base + off = addr then .acc (.op (.load .relaxed)) (s.half d X86.lo)
    else if s.reg base + off = addr + 8 then .acc (.op (.load .relaxed)) (s.half d X86.hi)
    else .fault
  | .setPrev lo hi => .go { s with prev := join (s.reg lo) (s.reg hi) }
  | .pass f => .go ((((s.set .a2 (X86.lo (f s.prev))).set .a3 (X86.hi (f s.prev))).set .a4 (X86.lo s.prev)).set .a5
      (X86.hi s.prev))
  | .setGot lo hi => .go { s with got := join (s.reg lo) (s.reg hi) }
  | .ifSame t => .br (s.got == s.prev) t
  | .retry => .go { s with prev := s.got }
  | .jump t => .br true t
  | .unreachable => .fault

end Verif.Rv64
