import Verif.Asm.Points
import Verif.Rv64.Isa
/-!
# The RISC-V instructions used by `src/imp/atomic64/riscv32.rs`

Registers are the operands of the `asm!` blocks by name and the fixed `a0`, `a2`..`a5`.  Meanings are
those of the RISC-V manual and its Zacas chapter (trusted), on a 8-byte object of this little-endian
architecture:

* `amocas.d` is a single access; the even register of a pair is the less significant half.
* `lw` reads one half.
* `amocas.d` on a processor without Zacas is a fault.
* The meaning of a `.4byte` word is that of the instruction it encodes.

The read-modify-write functions are Rust loops around two `asm!` blocks.  The Rust statements are
instructions of their own here, on two local variables.
-/
set_option autoImplicit false
namespace Verif.Rv32
open Verif.Lf Verif.Asm
open Verif.Rv64 (regOf)

export Verif.Rv64 (Reg)

/-- The halves of a 64-bit integer. -/
def lo (x : BitVec 64) : BitVec 32 := x.extractLsb' 0 32
def hi (x : BitVec 64) : BitVec 32 := x.extractLsb' 32 32

/-- Registers and Rust's local variables `prev` (the expected value, called `old` in
`atomic_compare_exchange`) and `got` (the value the compare-exchange returned). -/
structure St where
  reg : Reg → BitVec 32
  prev : BitVec 64
  got : BitVec 64

def St.set (s : St) (q : Reg) (x : BitVec 32) : St :=
  { s with reg := fun p => if p = q then x else s.reg p }

/-- `U64 { pair: Pair { lo, hi } }.whole`. -/
def join (lo hi : BitVec 32) : BitVec 64 := hi ++ lo

/-- Instructions. Branch targets are instruction numbers. -/
inductive Ins where
  /-- `fence rw,rw` -/
  | fence
  /-- an empty line -/
  | empty
  /-- `amocas.d{.aq}{.rl} d, n, 0(base)` -/
  | amocas (aq rl : Bool) (d n base : Reg)
  /-- `.4byte w` -/
  | word (w : BitVec 32)
  /-- `lw d, off(base)` -/
  | lw (d base : Reg) (off : BitVec 32)
  /-- Rust: `prev = U64 { lo, hi }` -/
  | setPrev (lo hi : Reg)
  /-- Rust: pass `prev` in `a4`, `a5` and `f(prev)` in `a2`, `a3` -/
  | pass (f : BitVec 64 → BitVec 64)
  /-- Rust: `got = U64 { lo, hi }` -/
  | setGot (lo hi : Reg)
  /-- Rust: go to `t` if `got == prev` -/
  | ifSame (t : Nat)
  /-- Rust: `prev = got` -/
  | retry
  | jump (t : Nat)
  /-- Rust's `unreachable!()` -/
  | unreachable

/-- Decoder for `amocas.d`: funct5 `00101`, aq, rl, rs2, rs1, funct3 `011`, rd, opcode `0101111`. -/
def decode (w : BitVec 32) : Option Ins :=
  if w.extractLsb' 27 5 = 0b00101#5 ∧ w.extractLsb' 12 3 = 0b011#3 ∧ w.extractLsb' 0 7 = 0b0101111#7 then
    match regOf (w.extractLsb' 7 5), regOf (w.extractLsb' 20 5), regOf (w.extractLsb' 15 5) with
    | some d, some n, some b => some (.amocas (w.getLsbD 26) (w.getLsbD 25) d n b)
    | _, _, _ => none
  else none

/-- The state after `amocas.d`: the old value in both cases. -/
def St.swapped (s : St) (d d' : Reg) : Res (BitVec 64) → St
  | .ok x | .err x => (s.set d (lo x)).set d' (hi x)
  | _ => s

/-- The state after `lw`. -/
def St.half (s : St) (d : Reg) (h : BitVec 64 → BitVec 32) : Res (BitVec 64) → St
  | .val x => s.set d (h x)
  | _ => s

/-- `amocas.d d, n, 0(base)`, for the object at `addr`. -/
def amocasSem (zacas : Bool) (addr : BitVec 32) (d n base : Reg) (s : St) : Eff St (BitVec 64) (BitVec 32) :=
  match d.next, n.next with
  | some d', some n' =>
    if zacas = true ∧ s.reg base = addr then
      .acc (.op (.cas (join (s.reg d) (s.reg d')) (join (s.reg n) (s.reg n')) .relaxed .relaxed)) (s.swapped d d')
    else .fault
  | _, _ => .fault

/-- The meaning of an instruction, for the object at address `addr`. Accesses to other addresses are
faults. -/
def Ins.sem (zacas : Bool) (addr : BitVec 32) (i : Ins) (s : St) : Eff St (BitVec 64) (BitVec 32) :=
  match i with
  | .fence | .empty => .go s
  | .amocas _ _ d n base => amocasSem zacas addr d n base s
  | .word w => match decode w with
    | some (.amocas _ _ d n base) => amocasSem zacas addr d n base s
    | _ => .fault
  | .lw d base off =>
    if s.reg base + off = addr then .acc (.op (.load .relaxed)) (s.half d lo)
    else if s.reg base + off = addr + 4 then .acc (.op (.load .relaxed)) (s.half d hi)
    else .fault
  | .setPrev lo hi => .go { s with prev := join (s.reg lo) (s.reg hi) }
  | .pass f => .go ((((s.set .a2 (lo (f s.prev))).set .a3 (hi (f s.prev))).set .a4 (lo s.prev)).set .a5
      (hi s.prev))
  | .setGot lo hi => .go { s with got := join (s.reg lo) (s.reg hi) }
  | .ifSame t => .br (s.got == s.prev) t
  | .retry => .go { s with prev := s.got }
  | .jump t => .br true t
  | .unreachable => .fault

end Verif.Rv32
