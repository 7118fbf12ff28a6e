import Verif.X86.Code
import Verif.Spec.Wide
import Verif.Detect.Configs
import Verif.Tso.Machine
/-!
# The functions of `src/imp/atomic128/x86_64.rs`: choice of a block, and `fence` of `src/imp/x86.rs`

The blocks are those of `X86.Code`; `Detect.Configs` has the choice between implementations.
-/
set_option autoImplicit false
namespace Verif.X86.Fn
open Verif.Lf Verif.Wide Verif.Tso

/-- Build configuration, the result of run-time detection (a `u32` of flags), the processor, and the
register convention. -/
structure Env where
  flags : Detect.X86.Flags
  det : Detect.Info
  cpuCx16 : Bool
  cpuAvx : Bool
  conv : Conv

/-- What an operation runs. -/
inductive Sel where
  | asm (b : Block)
  /-- the sequence lock, with an operation and orderings -/
  | fallback (op : WOp) (o f : MemOrd)
  /-- `unreachable!()` -/
  | unreachable

/-- The read-modify-write function of the table L916-L979. -/
def rmwName : Op3 → Detect.X86.Rmw
  | .add => .add | .sub => .sub | .and => .and | .nand => .nand | .or => .or | .xor => .xor
  | .max => .max | .umax => .umax | .min => .min | .umin => .umin

def rmwName2 : Op2 → Detect.X86.Rmw
  | .not => .not | .neg => .neg

/-- The implementation at a call site. -/
def Env.impl (E : Env) (s : Detect.X86.Site) : Detect.X86.Impl :=
  match Detect.X86.direct E.flags s with
  | some i => i
  | none => Detect.X86.pick E.flags s E.det

/-- `atomic_load`, L314-L366; `outline_atomics.rs` L65. -/
def selLoad (E : Env) : Sel :=
  match E.impl .load with
  | .vmovdqa => .asm .loadV
  | .cmpxchg16b => .asm .loadCx
  | .fallback => .fallback .load .seqCst .relaxed

/-- `atomic_store`, L423-L499 and `_atomic_store_vmovdqa`'s `match`, L233-L261; `outline_atomics.rs`
L84-L85. -/
def selStore (E : Env) (v : BitVec 128) (o : MemOrd) : Sel :=
  match o with
  | .relaxed | .release =>
    match E.impl .storeNonSeqCst with
    | .vmovdqa => .asm (.storeV v false)
    | .cmpxchg16b => .asm (.swap v)
    | .fallback => .fallback (.store v) .release .relaxed
  | .seqCst =>
    match E.impl .storeSeqCst with
    | .vmovdqa => .asm (.storeV v true)
    | .cmpxchg16b => .asm (.swap v)
    | .fallback => .fallback (.store v) .seqCst .relaxed
  | _ => .unreachable

/-- `atomic_compare_exchange`, L515-L545 (also the weak one, L548); `outline_atomics.rs` L113-L114. -/
def selCas (E : Env) (op : WOp) (old new : BitVec 128) : Sel :=
  match E.impl .cas with
  | .fallback => .fallback op .seqCst .seqCst
  | _ => .asm (.cas old new)

/-- `select_atomic_rmw!`, L873-L914; `outline_atomics.rs` L144, L169. -/
def selRmw (E : Env) (name : Detect.X86.Rmw) (op : WOp) (b : Block) : Sel :=
  match E.impl (.rmw name) with
  | .fallback => .fallback op .seqCst .relaxed
  | _ => .asm b

/-- What an operation runs. -/
def select (E : Env) (op : WOp) (o : MemOrd) : Sel :=
  match op with
  | .load => selLoad E
  | .store v => selStore E v o
  | .cas old new | .casWeak old new => selCas E op old new
  | .swap v => selRmw E .swap op (.swap v)
  | .rmw3 p v => selRmw E (rmwName p) op (.rmw3 p v)
  | .rmw2 p => selRmw E (rmwName2 p) op (.rmw2 p)

/-- Does the processor have the instructions of a block? -/
def Env.has (E : Env) : Block → Bool
  | .loadV | .storeV _ _ => E.cpuAvx
  | _ => E.cpuCx16

/-- A call: an operation, orderings, address and whatever is in registers and flags. -/
structure OpCall where
  op : WOp
  ord : MemOrd
  fail : MemOrd
  /-- panics for other orderings happen before (C15; `macros.rs`, `src/utils.rs` L394-L431) -/
  valid : op.OrdOk ord fail
  addr : BitVec 64
  regs : Regs
  flags : Flags

/-- Calls: an operation, or `fence(Ordering::SeqCst)` (`src/imp/x86.rs` L43-L72). -/
inductive Call where
  | op (c : OpCall)
  | fence

/-- Program points. -/
inductive FLoc where
  /-- an instruction the processor does not have, the sequence lock or `unreachable!()` -/
  | bad
  | asm (op : WOp) (l : Loc)
  /-- `xchg qword ptr [p], tmp` with a private `p` (`x86.rs` L53-L59) -/
  | xchg
  | done

/-- Start of a call. -/
def start (E : Env) : Call → FLoc
  | .op c => match select E c.op c.ord with
    | .asm b => if E.has b then .asm c.op (X86.code.start ⟨b, E.conv, c.addr, c.regs, c.flags⟩) else .bad
    | _ => .bad
  | .fence => .xchg

/-- The value returned: a store drops the result of the swap it is done by (L511). -/
def fix : WOp → Res (BitVec 128) → Res (BitVec 128)
  | .store _, _ => .unit
  | _, r => r

/-- Steps. -/
def next : FLoc → Next (BitVec 128) (Option (Res (BitVec 128))) FLoc
  | .bad => .ret none
  | .asm op l => match X86.step l with
    | .ret r => .ret (some (fix op r.1))
    | .tau k => .tau (.asm op k)
    | .acc a f => .acc a fun r => .asm op (f r)
  | .xchg => .tau .done
  | .done => .ret (some .unit)

/-- The back end. -/
def code (E : Env) : Code (BitVec 128) Call (Option (Res (BitVec 128))) FLoc where
  start := start E
  next := next

/-- Locked instructions: `lock cmpxchg16b`, and `xchg` with memory, which is always locked (the `fence` of
`Ins` is the `xchg` of L251). -/
def locked : FLoc → Bool
  | .asm _ l => match l.ins with
    | some (.cmpxchg16b _) | some .fence => true
    | _ => false
  | .xchg => true
  | _ => false

end Verif.X86.Fn
