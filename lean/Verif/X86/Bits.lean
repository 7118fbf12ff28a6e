import Verif.Spec.Bytes
set_option autoImplicit false
/-!
# x86: `lock not`, `lock neg`, `lock bts`, `lock btr`, `lock btc`

Models the asm blocks of `src/imp/x86.rs` L22-33 (`ptr_modifier!`), L80-137 (`atomic_int!`) and
L162-282 (`atomic_bit_opts!` with `portable_atomic_pre_llvm_16`) at the level of registers and byte
memory.  Types without an asm block (8-bit bit operations, 64-bit types on 32-bit x86) use the generic
code modelled in `Int/Code`.

The meaning of the instructions is Intel's (trusted): `bts m, r` takes the *signed* register as a bit
offset into the bit string that starts at `m`, so it reaches other memory when the offset is not below
the operand size.  `lock` makes the read and write of the operand one indivisible step.  Page faults,
segment bases and flags other than CF are not modelled.
-/
namespace Verif.X86.Bits
open Verif.Int Verif.Rv

/-- `target_arch`. -/
inductive Arch where
  | x86 | x86_64
deriving DecidableEq

/-- Bits in a general purpose register. -/
def Arch.reg : Arch → Nat
  | .x86 => 32
  | .x86_64 => 64

/-- `target_arch` and `target_pointer_width = "32"` (otherwise `"64"`). -/
structure Target where
  arch : Arch
  ptr32 : Bool
deriving DecidableEq

/-- x86, x86_64, and x86_64 with 32-bit pointers (x32); 32-bit x86 has 32-bit pointers. -/
def Target.Exists (t : Target) : Prop := t.arch = .x86 → t.ptr32 = true

/-- Bits in a pointer. -/
def Target.ptrBits (t : Target) : Nat := if t.ptr32 then 32 else 64

/-- The atomic types (`AtomicI8`, …, `AtomicPtr<T>`). -/
inductive Ty where
  | i8 | u8 | i16 | u16 | i32 | u32 | i64 | u64 | isize | usize | ptr
deriving DecidableEq

/-- `core::mem::size_of::<$int_type>()`, with `usize` for `AtomicPtr`. -/
def Ty.bytes (t : Target) : Ty → Nat
  | .i8 | .u8 => 1
  | .i16 | .u16 => 2
  | .i32 | .u32 => 4
  | .i64 | .u64 => 8
  | .isize | .usize | .ptr => if t.ptr32 then 4 else 8

/-- `"byte"`, `"word"`, `"dword"`, `"qword"`: `<size> ptr [..]`. -/
inductive Size where
  | byte | word | dword | qword
deriving DecidableEq

/-- Bytes of the memory operand. -/
def Size.bytes : Size → Nat
  | .byte => 1
  | .word => 2
  | .dword => 4
  | .qword => 8

/-- Register operand modifiers `":x"`, `":e"`, `""`. -/
inductive Mod where
  | x | e | full
deriving DecidableEq

/-- Bits of the part of the register the modifier names (`ax`, `eax`, and `""`: `eax` on x86, `rax` on
x86_64). -/
def Mod.bits (a : Arch) : Mod → Nat
  | .x => 16
  | .e => 32
  | .full => a.reg

/-- `ptr_modifier!`, L22-33. -/
def ptrModifier (t : Target) : Mod := if t.ptr32 then .e else .full

/-- `atomic_int!` invocations, L120-137. -/
def unRow (t : Target) : Ty → Option Size
  | .i8 | .u8 => some .byte
  | .i16 | .u16 => some .word
  | .i32 | .u32 => some .dword
  | .i64 | .u64 => if t.arch = .x86_64 then some .qword else none
  | .isize | .usize => if t.ptr32 then some .dword else some .qword
  | .ptr => none

/-- `atomic_bit_opts!` invocations, L257-282 (`impl_default_bit_opts!` for the rest). -/
def bitRow (t : Target) : Ty → Option (Mod × Size)
  | .i8 | .u8 => none
  | .i16 | .u16 => some (.x, .word)
  | .i32 | .u32 => some (.e, .dword)
  | .i64 | .u64 => if t.arch = .x86_64 then some (.full, .qword) else none
  | .isize | .usize | .ptr => if t.ptr32 then some (.e, .dword) else some (.full, .qword)

variable {g : Nat}

/-- `in(reg) v`: the low bits of the register are `v`, the rest is whatever was there. -/
def inReg (junk : BitVec g) {n : Nat} (v : BitVec n) : BitVec g :=
  ((junk >>> n) <<< n) ||| v.setWidth g

/-- Effective address `[r] + disp` with an `n`-bit address register: computed in `n` bits, then
zero-extended. -/
def ea (n : Nat) (r : BitVec g) (disp : Int) : BitVec g :=
  (r.setWidth n + BitVec.ofInt n disp).setWidth g

/-- Read `sz` bytes, little endian. -/
def ld (sz : Nat) (m : Bytes g) (a : BitVec g) : BitVec (8 * sz) :=
  BitVec.ofFnLE fun i : Fin (8 * sz) => (m (a + BitVec.ofNat g (i.1 / 8))).getLsbD (i.1 % 8)

/-- Write `sz` bytes, little endian. -/
def st (sz : Nat) (m : Bytes g) (a : BitVec g) (v : BitVec (8 * sz)) : Bytes g := fun x =>
  if (x - a).toNat < sz then (v >>> (8 * (x - a).toNat)).setWidth 8 else m x

/-- `lock not/neg <size> ptr [dst]`. -/
def lockUn (sz n : Nat) (u : Un) (rdst : BitVec g) (m : Bytes g) : Bytes g :=
  let a := ea n rdst 0
  match u with
  | .not => st sz m a (~~~(ld sz m a))
  | .neg => st sz m a (0 - ld sz m a)

/-- `lock bts/btr/btc <size> ptr [dst], bit`: the operand at `[dst] + sz * (off div bits)`, its bit
`off mod bits`, for the signed offset `off`; the old bit goes to CF. -/
def lockBt (sz n : Nat) (b : BitOp) (rdst rbit : BitVec g) (m : Bytes g) : Bytes g × Bool :=
  let off : Int := (rbit.setWidth (8 * sz)).toInt
  let a := ea n rdst (sz * (off / (8 * sz : Nat)))
  let i := (off % (8 * sz : Nat)).toNat
  (st sz m a (btFn b i (ld sz m a)), (ld sz m a).getLsbD i)

/-- `setb r`. -/
def setb (cf : Bool) : BitVec 8 := if cf then 1 else 0

/-- `assert_unchecked(r == 0 || r == 1); r != 0` (L199-200): `none` is undefined behaviour. -/
def finish (r : BitVec 8) : Option Bool := if r = 0 ∨ r = 1 then some (r != 0) else none

/-- The operations with an asm block.  Every `order` is accepted and ignored (`_order`). -/
inductive XOp where
  | un (u : Un) (o : MemOrd)
  | bit (b : BitOp) (n : BitVec 32) (o : MemOrd)

/-- Is the operation on this type an asm block? -/
def hasAsm (t : Target) (ty : Ty) : XOp → Bool
  | .un _ _ => (unRow t ty).isSome
  | .bit _ _ _ => (bitRow t ty).isSome

/-- `not` L84-98, `neg` L100-115: `none` when there is no block or it does not assemble (a `qword`
operand needs x86_64). -/
def unFn (t : Target) (ty : Ty) (u : Un) (addr : BitVec t.ptrBits) (jd : BitVec t.arch.reg)
    (m : Bytes t.arch.reg) : Option (Bytes t.arch.reg) := do
  let size ← unRow t ty
  if size = .qword ∧ t.arch = .x86 then none
  some (lockUn size.bytes ((ptrModifier t).bits t.arch) u (inReg jd addr) m)

/-- `(bit & (Self::BITS - 1)) as $int_type`, with `BITS = size_of::<$int_type>() * 8` (L177, L194). -/
def bitArg (t : Target) (ty : Ty) (n : BitVec 32) : BitVec (8 * ty.bytes t) :=
  (n &&& (BitVec.ofNat 32 (ty.bytes t * 8) - 1)).setWidth (8 * ty.bytes t)

/-- `bit_set` L179-202, `bit_clear` L204-227, `bit_toggle` L229-252: `none` when there is no block, it
does not assemble (the two operands differ in size) or the behaviour is undefined. -/
def bitFnAsm (t : Target) (ty : Ty) (b : BitOp) (n : BitVec 32) (addr : BitVec t.ptrBits)
    (jd jb : BitVec t.arch.reg) (m : Bytes t.arch.reg) : Option (Bytes t.arch.reg × Bool) := do
  let (vm, size) ← bitRow t ty
  if vm.bits t.arch ≠ 8 * size.bytes then none
  let (m', cf) := lockBt size.bytes ((ptrModifier t).bits t.arch) b (inReg jd addr)
    (inReg jb (bitArg t ty n)) m
  let r ← finish (setb cf)
  some (m', r)

/-- One call: the new memory and the answer.  `jd`, `jb`: what was in the unused parts of the
registers of `dst` and `bit`. -/
def exec (t : Target) (ty : Ty) (op : XOp) (addr : BitVec t.ptrBits) (jd jb : BitVec t.arch.reg)
    (m : Bytes t.arch.reg) : Option (Bytes t.arch.reg × IRes (8 * ty.bytes t)) :=
  match op with
  | .un u _ => (unFn t ty u addr jd m).map fun m' => (m', .res .unit)
  | .bit b n _ => (bitFnAsm t ty b n addr jd jb m).map fun p => (p.1, .flag p.2)

end Verif.X86.Bits
