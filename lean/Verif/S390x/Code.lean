import Verif.S390x.Isa
import Verif.Spec.Wide
/-!
# The 128-bit operations of `src/imp/atomic128/s390x.rs`, instruction by instruction
-/
set_option autoImplicit false
namespace Verif.S390x
open Verif.Lf Verif.Asm Verif.Wide

/-- Build configuration: enabled facilities, and whether the target is z/OS. -/
structure Cfg where
  feat : Feat
  zos : Bool

/-- The `asm!` blocks. -/
inductive Block where
  /-- `atomic_load`, L107-L126 -/
  | load
  /-- `atomic_store`, L128-L157, with or without `serialization!()` -/
  | store (ser : Bool)
  /-- `atomic_compare_exchange`, L159-L205; also the weak one, L208 -/
  | cas
  /-- `atomic_swap`, L210-L246 -/
  | swap
  /-- `atomic_rmw_cas_3!`, L255-L291 -/
  | rmw3 (o : Op3)
  /-- `atomic_cmp!`, L440-L491 -/
  | cmp (o : Op3)
  /-- `atomic_rmw_cas_2!`, L298-L325 -/
  | rmw2 (o : Op2)
  /-- `unreachable!()` -/
  | unreachable
deriving DecidableEq

/-! ## The blocks' instructions -/

/-- `serialization!()`, L41-L57. -/
def serialization (g : Cfg) : Ins := if g.feat.fast then .bcr 14 else .bcr 15

/-- `distinct_op!`, L59-L72. -/
def distinct (g : Cfg) (o : Alu) (a0 a1 a2 : Reg) : List Ins :=
  if g.feat.distinct then [.alu3 o a0 a1 a2] else [.lgr a0 a1, .alu2 o a0 a2]

/-- `select_op!`, L74-L99. -/
def selectOp (g : Cfg) (k : Cond) (a0 a1 a2 : Reg) : List Ins :=
  if g.feat.misc3 then [.selgr k a0 a1 a2] else [.lgr a0 a2, .locgr k a0 a1]

/-- The pair `"r4", "r5"`, on z/OS `"r12", "r13"` (L196-L200, L239-L243, L486-L490). -/
def Cfg.even (g : Cfg) : Reg := if g.zos then .r12 else .r4
def Cfg.odd (g : Cfg) : Reg := if g.zos then .r13 else .r5

open Ins Reg in
/-- The operations of L327-L437. -/
def body3 (g : Cfg) : Op3 → List Ins
  | .add => distinct g .al r13 r1 valLo ++ [lgr r12 r0, alcgr r12 valHi]
  | .sub => distinct g .sl r13 r1 valLo ++ [lgr r12 r0, slbgr r12 valHi]
  | .and => distinct g .ng r13 r1 valLo ++ distinct g .ng r12 r0 valHi
  | .nand =>
    if g.feat.misc3 then [nngrk r13 r1 valLo, nngrk r12 r0 valHi]
    else distinct g .ng r13 r1 valLo ++ distinct g .ng r12 r0 valHi ++
      [lcgr r13 r13, aghi r13 (-1), lcgr r12 r12, aghi r12 (-1)]
  | .or => distinct g .og r13 r1 valLo ++ distinct g .og r12 r0 valHi
  | .xor => distinct g .xg r13 r1 valLo ++ distinct g .xg r12 r0 valHi
  | .max => [clgr r1 valLo] ++ selectOp g .h r12 r1 valLo ++ [cgr r0 valHi] ++ selectOp g .h r13 r1 valLo ++
      [locgr .e r13 r12] ++ selectOp g .h r12 r0 valHi
  | .umax => [clgr r1 valLo] ++ selectOp g .h tmp r1 valLo ++ [clgr r0 valHi] ++ selectOp g .h r12 r0 valHi ++
      selectOp g .h r13 r1 valLo ++ [cgr r0 valHi, locgr .e r13 tmp]
  | .min => [clgr r1 valLo] ++ selectOp g .l r12 r1 valLo ++ [cgr r0 valHi] ++ selectOp g .l r13 r1 valLo ++
      [locgr .e r13 r12] ++ selectOp g .l r12 r0 valHi
  | .umin => [clgr r1 valLo] ++ selectOp g .l tmp r1 valLo ++ [clgr r0 valHi] ++ selectOp g .l r12 r0 valHi ++
      selectOp g .l r13 r1 valLo ++ [cgr r0 valHi, locgr .e r13 tmp]

open Ins Reg in
/-- The operations of L518-L540. -/
def body2 (g : Cfg) : Op2 → List Ins
  | .not => [lcgr r13 r1, aghi r13 (-1), lcgr r12 r0, aghi r12 (-1)]
  | .neg =>
    if g.feat.distinct then [alu3 .sl r13 zero r1, lghi r12 0, slbgr r12 r0]
    else [lghi r13 0, alu2 .sl r13 r1, lghi r12 0, slbgr r12 r0]

open Ins Reg in
/-- `lg; lg; 2: op; cdsg; jl 2b`. -/
def loop (n : Reg) (body : List Ins) : List Ins :=
  [lg r1 dst 8, lg r0 dst 0] ++ body ++ [cdsg r0 n dst, jl 2]

/-- `$cmp_hi1`, `$cmp_hi2`, `$cmp_lo` of L493-L515: signed high words?, and the conditions. -/
def cmpOps : Op3 → Option (Bool × Cond × Cond × Cond)
  | .max => some (true, .h, .l, .he)
  | .umax => some (false, .h, .l, .he)
  | .min => some (true, .l, .h, .le)
  | .umin => some (false, .l, .h, .le)
  | _ => none

/-- A compare-and-branch instruction. -/
def cmpBr (signed : Bool) (k : Cond) (a b : Reg) (t : Nat) : Ins :=
  if signed then .cgrj k a b t else .clgrj k a b t

open Ins Reg in
/-- The loop of `atomic_cmp!`. -/
def cmpLoop (g : Cfg) (p : Bool × Cond × Cond × Cond) : List Ins :=
  [lg r1 dst 8, lg r0 dst 0, cmpBr p.1 p.2.1 g.even r0 8, cmpBr p.1 p.2.2.1 g.even r0 5,
    cmpBr false p.2.2.2 g.odd r1 8, cdsg r0 r0 dst, jl 2, j 10, cdsg r0 g.even dst, jl 2]

open Ins Reg in
/-- The instructions of a block; `r` is the register of the operand `{r}`. -/
def Block.code (g : Cfg) (r : Reg) : Block → List Ins
  | .load => [lpq r0 dst]
  | .store ser => [stpq r0 dst] ++ if ser then [serialization g] else []
  | .cas => [cdsg r0 g.even dst, ipm r]
  | .swap => loop g.even []
  | .rmw3 o => loop r12 (body3 g o)
  | .cmp o => match cmpOps o with
    | some p => cmpLoop g p
    | none => [.unreachable]
  | .rmw2 o => loop r12 (body2 g o)
  | .unreachable => [.unreachable]

/-! ## Operands -/

/-- Operand values other than the address: register and value. -/
def Block.ins (g : Cfg) (op : WOp) : Block → List (Reg × BitVec 64)
  | .store _ => [(.r0, X86.hi op.arg), (.r1, X86.lo op.arg)]
  | .cas => [(.r0, X86.hi op.old), (.r1, X86.lo op.old), (g.even, X86.hi op.arg), (g.odd, X86.lo op.arg)]
  | .swap | .cmp _ => [(g.even, X86.hi op.arg), (g.odd, X86.lo op.arg)]
  | .rmw3 _ => [(.valHi, X86.hi op.arg), (.valLo, X86.lo op.arg)]
  | .rmw2 .neg => if g.feat.distinct then [(.zero, 0)] else []
  | .load | .rmw2 .not | .unreachable => []

/-- Registers the operands declare as outputs. -/
def Block.outs (r : Reg) : Block → List Reg
  | .load | .swap | .cmp _ => [.r0, .r1]
  | .cas => [.r0, .r1, r]
  | .rmw3 .umax | .rmw3 .umin => [.r0, .r1, .r12, .r13, .tmp]
  | .rmw3 _ | .rmw2 _ => [.r0, .r1, .r12, .r13]
  | .store _ | .unreachable => []

/-- `options(preserves_flags)`. -/
def Block.preservesFlags : Block → Bool
  | .load | .store _ | .unreachable => true
  | .cas | .swap | .rmw3 _ | .cmp _ | .rmw2 _ => false

/-! ## Choice of the implementation -/

/-- Does the operation use `atomic_cmp!` (L438-L515) rather than `atomic_rmw_cas_3!` when
`load-store-on-cond` is not enabled? -/
def isCmp : Op3 → Bool
  | .max | .umax | .min | .umin => true
  | _ => false

/-- The block an operation runs. -/
def select (g : Cfg) (op : WOp) (o : MemOrd) : Block :=
  match op with
  | .load => .load
  | .store _ => match o with
    | .relaxed | .release => .store false
    | .seqCst => .store true
    | _ => .unreachable
  | .swap _ => .swap
  | .cas _ _ | .casWeak _ _ => .cas
  | .rmw3 p _ => if isCmp p && !g.feat.loc then .cmp p else .rmw3 p
  | .rmw2 p => .rmw2 p

/-! ## Calls -/

/-- Where the program runs. -/
structure Env where
  cfg : Cfg
  cpu : Feat

/-- A call: operation, orderings (`fail` for compare-exchange), address, register allocation, and
whatever is in the registers. -/
structure Call where
  op : WOp
  ord : MemOrd
  fail : MemOrd
  /-- panics for other orderings happen before (C15; `macros.rs`, `src/utils.rs` L394-L431) -/
  valid : op.OrdOk ord fail
  addr : BitVec 64
  /-- the register of `{r}`: any but the other outputs', perhaps an input's (`lateout`) -/
  r : Reg
  late : r ≠ .r0 ∧ r ≠ .r1
  st : St

/-- The block a call runs. -/
def Call.block (E : Env) (c : Call) : Block := select E.cfg c.op c.ord

/-- Processor state at the start of the block. -/
def Call.entry (E : Env) (c : Call) : St :=
  ((c.block E).ins E.cfg c.op).foldr (fun p s => s.set p.1 p.2) (c.st.set .dst c.addr)

/-- `extract_cc`, L101-L105. -/
def extractCc (r : BitVec 64) : Bool := ((r + (-268435456 : BitVec 64)) &&& ((1 : BitVec 64) <<< 31)) != 0#64

/-- The result the Rust code makes of the outputs: for compare-exchange
`if extract_cc(r) { Ok(prev) } else { Err(prev) }` (L204), nothing for a store, else the pair. -/
def Call.result (c : Call) (s : St) : Res (BitVec 128) :=
  let prev := join (s.reg .r0) (s.reg .r1)
  match c.op with
  | .store _ => .unit
  | .cas _ _ | .casWeak _ _ => if extractCc (s.reg c.r) then .ok prev else .err prev
  | _ => .val prev

/-- The back end. (No instruction reads the object in two parts, so the reading order is immaterial.) -/
def blocks (E : Env) : Blocks Call Ins St (BitVec 128) (BitVec 64) (Res (BitVec 128) × St) where
  prog c := (c.block E).code E.cfg c.r
  entry c := c.entry E
  sem c i s := i.sem E.cpu c.addr s
  out c s := (c.result s, s)
  order := fun _ _ => false

end Verif.S390x
