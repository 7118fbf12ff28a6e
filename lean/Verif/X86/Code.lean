import Verif.X86.Isa
import Verif.Int.Code
/-!
# The 128-bit operations of `src/imp/atomic128/x86_64.rs`, instruction by instruction

Every inline-assembly block is a list of instructions; each instruction is one step, memory is the
16-byte object itself.  `Conv` is the choice of registers: non-Windows or Windows (`rsi`/`rdi` are
call-preserved there).
-/
namespace Verif.X86
open Verif.Lf Verif.Int

/-- `cfg(not(windows))` / `cfg(windows)`. -/
inductive Conv where
  | unix | windows
deriving DecidableEq

/-- Three-argument read-modify-writes (`atomic_rmw_cas_3!`). -/
inductive Op3 where
  | add | sub | and | nand | or | xor | max | umax | min | umin
deriving DecidableEq

/-- Two-argument read-modify-writes (`atomic_rmw_cas_2!`). -/
inductive Op2 where
  | not | neg
deriving DecidableEq

open Ins Reg in
/-- `x86_64.rs` L772-L816 and L832-L871: the operation on `rdx:rax` and `r9:r8` into `rcx:rbx`. -/
def body3 : Op3 → List Ins
  | .add => [mov rbx rax, add rbx r8, mov rcx rdx, adc rcx r9]
  | .sub => [mov rbx rax, sub rbx r8, mov rcx rdx, sbb rcx r9]
  | .and => [mov rbx rax, and rbx r8, mov rcx rdx, and rcx r9]
  | .nand => [mov rbx rax, and rbx r8, not rbx, mov rcx rdx, and rcx r9, not rcx]
  | .or => [mov rbx rax, or rbx r8, mov rcx rdx, or rcx r9]
  | .xor => [mov rbx rax, xor rbx r8, mov rcx rdx, xor rcx r9]
  | .max => [cmp r8 rax, mov rcx r9, sbb rcx rdx, mov rcx r9, cmov .l rcx rdx, mov rbx r8, cmov .l rbx rax]
  | .umax => [cmp r8 rax, mov rcx r9, sbb rcx rdx, mov rcx r9, cmov .b rcx rdx, mov rbx r8, cmov .b rbx rax]
  | .min => [cmp r8 rax, mov rcx r9, sbb rcx rdx, mov rcx r9, cmov .ge rcx rdx, mov rbx r8, cmov .ge rbx rax]
  | .umin => [cmp r8 rax, mov rcx r9, sbb rcx rdx, mov rcx r9, cmov .ae rcx rdx, mov rbx r8, cmov .ae rbx rax]

open Ins Reg in
/-- `x86_64.rs` L817-L830: the operation on `rdx:rax` into `rcx:rbx`. -/
def body2 : Op2 → List Ins
  | .not => [mov rbx rax, not rbx, mov rcx rdx, not rcx]
  | .neg => [mov rbx rax, neg rbx, movi rcx 0, sbb rcx rdx]

/-- `crate::utils::U128`'s halves on x86_64 (`src/utils.rs` L485-535). -/
def lo (x : BitVec 128) : BitVec 64 := x.extractLsb' 0 64
def hi (x : BitVec 128) : BitVec 64 := x.extractLsb' 64 64

/-- The assembly blocks. -/
inductive Block where
  /-- `_atomic_load_cmpxchg16b`, L373-L421 -/
  | loadCx
  /-- `_atomic_load_vmovdqa`, L201-L217 -/
  | loadV
  /-- `_atomic_store_vmovdqa`, L225-L263; `sc` for `Ordering::SeqCst` -/
  | storeV (v : BitVec 128) (sc : Bool)
  /-- `atomic_swap_cmpxchg16b` (also `_atomic_store_cmpxchg16b`, L507-L513, which drops the result),
  L553-L615 -/
  | swap (v : BitVec 128)
  /-- `cmpxchg16b`, L120-L176 -/
  | cas (old new : BitVec 128)
  /-- `atomic_rmw_cas_3!`, L626-L693 -/
  | rmw3 (o : Op3) (v : BitVec 128)
  /-- `atomic_rmw_cas_2!`, L704-L770 -/
  | rmw2 (o : Op2)

/-- The register holding the address. -/
def Block.base : Block → Conv → Reg
  | .loadCx, .unix | .swap _, .unix | .rmw3 _ _, .unix | .rmw2 _, .unix => .rdi
  | .loadCx, .windows | .swap _, .windows | .rmw2 _, .windows => .r9
  | .rmw3 _ _, .windows => .r10
  | .cas _ _, .unix => .rsi
  | .cas _ _, .windows => .r11
  -- `in(reg)`: any register; `rdi` stands for it
  | .loadV, _ | .storeV _ _, _ => .rdi

/-- The register `rbx` is saved in. -/
def Block.save : Block → Conv → Reg
  | .rmw3 _ _, .unix => .r10
  | .rmw3 _ _, .windows => .r11
  | .cas _ _, _ => .r8
  | _, .unix => .rsi
  | _, .windows => .r8

/-- The loop of `atomic_rmw_cas_3!`/`atomic_rmw_cas_2!`. -/
def rmwCode (base save : Reg) (body : List Ins) : List Ins :=
  [.mov save .rbx, .ldq .rax base false, .ldq .rdx base true] ++ body ++
    [.cmpxchg16b base, .jne 3, .mov .rbx save]

/-- The instructions of a block. -/
def Block.code (b : Block) (c : Conv) : List Ins :=
  match b with
  | .loadCx => [.mov (b.save c) .rbx, .xor .rbx .rbx, .cmpxchg16b (b.base c), .mov .rbx (b.save c)]
  | .loadV => [.ldx (b.base c)]
  | .storeV _ false => [.stx (b.base c)]
  | .storeV _ true => [.stx (b.base c), .fence]
  | .swap _ => [.xchg (b.save c) .rbx, .ldq .rax (b.base c) false, .ldq .rdx (b.base c) true,
      .cmpxchg16b (b.base c), .jne 3, .mov .rbx (b.save c)]
  | .cas _ _ => [.xchg .r8 .rbx, .cmpxchg16b (b.base c), .setneCl, .mov .rbx .r8]
  | .rmw3 o _ => rmwCode (b.base c) (b.save c) (body3 o)
  | .rmw2 o => rmwCode (b.base c) (b.save c) (body2 o)

/-- Register contents at the start of a block: the `in`/`inout` operands over whatever was there. -/
def Block.entry (b : Block) (c : Conv) (addr : BitVec 64) (g : Regs) : Regs :=
  match b with
  | .loadCx => { g with rcx := 0, rax := 0, rdx := 0 }.set (b.base c) addr
  | .loadV => g.set (b.base c) addr
  | .storeV v _ => { g with xmm := v }.set (b.base c) addr
  | .swap v => (({ g with rcx := hi v }).set (b.save c) (lo v)).set (b.base c) addr
  | .cas old new => { g with r8 := lo new, rcx := hi new, rax := lo old, rdx := hi old }.set (b.base c) addr
  | .rmw3 _ v => { g with r8 := lo v, r9 := hi v }.set (b.base c) addr
  | .rmw2 _ => g.set (b.base c) addr

/-- Registers the `asm!` operands declare as outputs or clobbered. -/
def Block.outs (b : Block) (c : Conv) : List Reg :=
  match b with
  | .loadCx => [b.save c, .rax, .rdx]
  | .loadV | .storeV _ _ => []
  | .swap _ => [b.save c, .rax, .rdx]
  | .cas _ _ => [.r8, .rax, .rdx, .rcx]
  | .rmw3 _ _ | .rmw2 _ => [b.save c, .rcx, .rax, .rdx]

/-- Is the vector register an output? -/
def Block.xmmOut : Block → Bool
  | .loadV => true
  | _ => false

/-- The value the surrounding Rust code builds from the outputs.  For `cas`: `r == 0` where `r` is
`cl` (L175, L530); otherwise `U128 { pair: Pair { lo: rax, hi: rdx } }.whole`. -/
def Block.result (b : Block) (r : Regs) : Res (BitVec 128) :=
  match b with
  | .loadV => .val r.xmm
  | .storeV _ _ => .unit
  | .cas _ _ => if r.rcx.extractLsb' 0 8 = 0 then .ok (r.rdx ++ r.rax) else .err (r.rdx ++ r.rax)
  | _ => .val (r.rdx ++ r.rax)

/-- A call of a block: the block, the register convention, the address and the garbage in the
registers and flags. -/
structure Call where
  block : Block
  conv : Conv
  addr : BitVec 64
  regs : Regs
  flags : Flags

/-- Program point of a call. -/
structure Loc where
  call : Call
  pc : Nat
  regs : Regs
  flags : Flags

def Loc.ins (l : Loc) : Option Ins := (l.call.block.code l.call.conv)[l.pc]?

/-- After a memory read. -/
def Loc.got (l : Loc) (g : BitVec 128 → Regs) : Res (BitVec 128) → Loc
  | .val x => { l with pc := l.pc + 1, regs := g x }
  | _ => l

/-- After `cmpxchg16b`: ZF says whether it stored; on failure `rdx:rax` is the memory value. -/
def Loc.gotCas (l : Loc) : Res (BitVec 128) → Loc
  | .ok _ => { l with pc := l.pc + 1, flags := { l.flags with zf := true } }
  | .err x => { l with pc := l.pc + 1, regs := { l.regs with rax := lo x, rdx := hi x },
                       flags := { l.flags with zf := false } }
  | _ => l

/-- One instruction.  A memory access through a register not holding the object's address is a
wild access: the model gets stuck there (spins without effect). -/
def step (l : Loc) : Next (BitVec 128) (Res (BitVec 128) × Regs) Loc :=
  match l.ins with
  | none => .ret (l.call.block.result l.regs, l.regs)
  | some (.ldq d base h) =>
    if l.regs.get base = l.call.addr then
      .acc (.op (.load .relaxed)) (l.got fun x => l.regs.set d (if h then hi x else lo x))
    else .tau l
  | some (.cmpxchg16b base) =>
    if l.regs.get base = l.call.addr then
      .acc (.op (.cas (l.regs.rdx ++ l.regs.rax) (l.regs.rcx ++ l.regs.rbx) .seqCst .seqCst)) l.gotCas
    else .tau l
  | some (.ldx base) =>
    if l.regs.get base = l.call.addr then
      .acc (.op (.load .seqCst)) (l.got fun x => { l.regs with xmm := x })
    else .tau l
  | some (.stx base) =>
    if l.regs.get base = l.call.addr then
      .acc (.op (.store l.regs.xmm .release)) (fun _ => { l with pc := l.pc + 1 })
    else .tau l
  | some .fence => .tau { l with pc := l.pc + 1 }
  | some (.jne t) => .tau { l with pc := if l.flags.zf then l.pc + 1 else t }
  | some i =>
    match i.exec l.regs l.flags with
    | some s => .tau { l with pc := l.pc + 1, regs := s.1, flags := s.2 }
    | none => .tau l

/-- All blocks as programs. -/
def code : Code (BitVec 128) Call (Res (BitVec 128) × Regs) Loc where
  start c := { call := c, pc := 0, regs := c.block.entry c.conv c.addr c.regs, flags := c.flags }
  next := step

end Verif.X86
