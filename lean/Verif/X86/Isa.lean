import Verif.Lf.Access
/-!
# The x86-64 instructions used by `src/imp/atomic128/x86_64.rs`

Registers, flags and the register-only instructions.  Only the registers the inline assembly names
are present.  Semantics follow the Intel SDM: `mov`, `cmovcc`, `xchg`, `not` leave the flags alone;
`and`/`or`/`xor` clear CF and OF; `neg` sets CF iff its operand is non-zero; `sbb`/`adc` use CF.
-/
namespace Verif.X86

/-- General purpose registers named by the assembly. -/
inductive Reg where
  | rax | rbx | rcx | rdx | rsi | rdi | r8 | r9 | r10 | r11
deriving DecidableEq, Repr

/-- Register file (`xmm` is the one vector register of a block). -/
structure Regs where
  rax : BitVec 64
  rbx : BitVec 64
  rcx : BitVec 64
  rdx : BitVec 64
  rsi : BitVec 64
  rdi : BitVec 64
  r8 : BitVec 64
  r9 : BitVec 64
  r10 : BitVec 64
  r11 : BitVec 64
  xmm : BitVec 128
deriving DecidableEq

structure Flags where
  cf : Bool
  zf : Bool
  sf : Bool
  of : Bool
deriving DecidableEq

def Regs.get (r : Regs) : Reg → BitVec 64
  | .rax => r.rax | .rbx => r.rbx | .rcx => r.rcx | .rdx => r.rdx | .rsi => r.rsi
  | .rdi => r.rdi | .r8 => r.r8 | .r9 => r.r9 | .r10 => r.r10 | .r11 => r.r11

def Regs.set (r : Regs) (d : Reg) (v : BitVec 64) : Regs :=
  match d with
  | .rax => { r with rax := v } | .rbx => { r with rbx := v } | .rcx => { r with rcx := v }
  | .rdx => { r with rdx := v } | .rsi => { r with rsi := v } | .rdi => { r with rdi := v }
  | .r8 => { r with r8 := v } | .r9 => { r with r9 := v } | .r10 => { r with r10 := v }
  | .r11 => { r with r11 := v }

/-- Conditions of `cmovcc`: below (unsigned), above-or-equal, less (signed), greater-or-equal. -/
inductive Cond where
  | b | ae | l | ge
deriving DecidableEq

def Cond.holds (f : Flags) : Cond → Bool
  | .b => f.cf
  | .ae => !f.cf
  | .l => f.sf != f.of
  | .ge => f.sf == f.of

/-- Instructions.  Memory operands name the base register. -/
inductive Ins where
  | mov (d s : Reg)
  | movi (d : Reg) (i : BitVec 64)
  | add (d s : Reg)
  | adc (d s : Reg)
  | sub (d s : Reg)
  | sbb (d s : Reg)
  | and (d s : Reg)
  | or (d s : Reg)
  | xor (d s : Reg)
  | not (d : Reg)
  | neg (d : Reg)
  | cmp (a b : Reg)
  | cmov (c : Cond) (d s : Reg)
  | xchg (a b : Reg)
  /-- `setne cl` -/
  | setneCl
  /-- `mov d, qword ptr [base]` (`hi = false`) or `[base + 8]` (`hi = true`) -/
  | ldq (d base : Reg) (hi : Bool)
  /-- `lock cmpxchg16b xmmword ptr [base]` -/
  | cmpxchg16b (base : Reg)
  /-- `vmovdqa xmm, xmmword ptr [base]` -/
  | ldx (base : Reg)
  /-- `vmovdqa xmmword ptr [base], xmm` -/
  | stx (base : Reg)
  /-- `xchg qword ptr [p], tmp` on a private location: a full fence -/
  | fence
  /-- `jne` to instruction number `target` -/
  | jne (target : Nat)
deriving DecidableEq

/-- `0` or `1`. -/
def bit (b : Bool) : BitVec 64 := if b then 1 else 0

/-- Flags after an addition `a + b + c`. -/
def addFlags (a b : BitVec 64) (c : Bool) : Flags :=
  let r := a + b + bit c
  { cf := 2 ^ 64 ≤ a.toNat + b.toNat + c.toNat, zf := r == 0, sf := r.msb,
    of := r.toInt ≠ a.toInt + b.toInt + c.toNat }

/-- Flags after a subtraction `a - b - c`. -/
def subFlags (a b : BitVec 64) (c : Bool) : Flags :=
  let r := a - b - bit c
  { cf := a.toNat < b.toNat + c.toNat, zf := r == 0, sf := r.msb,
    of := r.toInt ≠ a.toInt - b.toInt - c.toNat }

/-- Flags after a logical operation. -/
def logicFlags (r : BitVec 64) : Flags := { cf := false, zf := r == 0, sf := r.msb, of := false }

/-- Effect of a register-only instruction; `none` for the others. -/
def Ins.exec (r : Regs) (f : Flags) : Ins → Option (Regs × Flags)
  | .mov d s => some (r.set d (r.get s), f)
  | .movi d i => some (r.set d i, f)
  | .add d s => some (r.set d (r.get d + r.get s + bit false), addFlags (r.get d) (r.get s) false)
  | .adc d s => some (r.set d (r.get d + r.get s + bit f.cf), addFlags (r.get d) (r.get s) f.cf)
  | .sub d s => some (r.set d (r.get d - r.get s - bit false), subFlags (r.get d) (r.get s) false)
  | .sbb d s => some (r.set d (r.get d - r.get s - bit f.cf), subFlags (r.get d) (r.get s) f.cf)
  | .and d s => some (r.set d (r.get d &&& r.get s), logicFlags (r.get d &&& r.get s))
  | .or d s => some (r.set d (r.get d ||| r.get s), logicFlags (r.get d ||| r.get s))
  | .xor d s => some (r.set d (r.get d ^^^ r.get s), logicFlags (r.get d ^^^ r.get s))
  | .not d => some (r.set d (~~~r.get d), f)
  | .neg d => some (r.set d (0 - r.get d - bit false), subFlags 0 (r.get d) false)
  | .cmp a b => some (r, subFlags (r.get a) (r.get b) false)
  | .cmov c d s => some (if c.holds f then r.set d (r.get s) else r, f)
  | .xchg a b => some ((r.set a (r.get b)).set b (r.get a), f)
  | .setneCl => some ({ r with rcx := (r.rcx.extractLsb' 8 56 ++ (bif f.zf then 0#8 else 1#8)) }, f)
  | .ldq _ _ _ | .cmpxchg16b _ | .ldx _ | .stx _ | .fence | .jne _ => none

/-- Run a block of register-only instructions. -/
def runBlock : List Ins → Regs × Flags → Option (Regs × Flags)
  | [], s => some s
  | i :: is, s => (i.exec s.1 s.2).bind (runBlock is)

end Verif.X86
