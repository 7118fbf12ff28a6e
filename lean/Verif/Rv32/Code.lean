import Verif.Rv32.Isa
import Verif.Rv64.Code
import Verif.Ordering
/-!
# The 64-bit operations of `src/imp/atomic64/riscv32.rs`, instruction by instruction
-/
set_option autoImplicit false
namespace Verif.Rv32
open Verif.Lf Verif.Asm Verif.Wide

export Verif.Rv64 (Cfg Mode)

/-- The operations on a 64-bit integer. -/
abbrev Op64 := WOp 64

/-- `atomic_rmw_amocas_order!`, L75-L90: the fence and the suffix. -/
def amocasOrder (o failure : MemOrd) : Mode :=
  match o with
  | .relaxed => ⟨false, false, false⟩
  | .acquire => ⟨false, true, false⟩
  | .release => ⟨false, false, true⟩
  | .acqRel => ⟨false, true, true⟩
  | .seqCst => if failure = .seqCst then ⟨true, true, true⟩ else ⟨false, true, true⟩

/-- `atomic_rmw_amocas_order_insn!`, L91-L107: the fence and the hexadecimal digit. -/
def amocasOrderInsn (o failure : MemOrd) : Bool × BitVec 4 :=
  match o with
  | .relaxed => (false, 0x8)
  | .acquire => (false, 0xc)
  | .release => (false, 0xa)
  | .acqRel => (false, 0xe)
  | .seqCst => if failure = .seqCst then (true, 0xe) else (false, 0xe)

/-- `.4byte 0x2<digit>c5362f` (L192) and `.4byte 0x2<digit>c5372f` (L339). -/
def loadWord (k : BitVec 4) : BitVec 32 := (0x2 : BitVec 4) ++ k ++ (0xc5362f : BitVec 24)
def casWord (k : BitVec 4) : BitVec 32 := (0x2 : BitVec 4) ++ k ++ (0xc5372f : BitVec 24)

/-- The `$fence` line. -/
def fenceLine (b : Bool) : Ins := if b then .fence else .empty

/-- `load!`, L169-L185 and L186-L200: `amocas.d a2, a2, 0({src})`. -/
def loadAsm (g : Cfg) (o : MemOrd) : List Ins :=
  if g.preLlvm20 then
    [fenceLine (amocasOrderInsn o o).1, .word (loadWord (amocasOrderInsn o o).2)]
  else
    [fenceLine (amocasOrder o o).fence, .amocas (amocasOrder o o).aq (amocasOrder o o).rl .a2 .a2 .ptr]

/-- `cmpxchg!`, L312-L332 and L333-L352: `amocas.d a4, a2, 0({dst})`; `o` is `order`, the success ordering
upgraded by the failure ordering (L305). -/
def casAsm (g : Cfg) (o f : MemOrd) : List Ins :=
  if g.preLlvm20 then
    [fenceLine (amocasOrderInsn o f).1, .word (casWord (amocasOrderInsn o f).2)]
  else
    [fenceLine (amocasOrder o f).fence, .amocas (amocasOrder o f).aq (amocasOrder o f).rl .a4 .a2 .ptr]

/-- The closures of L487-L596. -/
def next3 (p : Op3) (val x : BitVec 64) : BitVec 64 :=
  match p with
  | .add => x + val
  | .sub => x - val
  | .and => x &&& val
  | .nand => ~~~(x &&& val)
  | .or => x ||| val
  | .xor => x ^^^ val
  | .max => if val.slt x then x else val
  | .umax => if val.ult x then x else val
  | .min => if val.slt x then val else x
  | .umin => if val.ult x then val else x

def next2 (p : Op2) (x : BitVec 64) : BitVec 64 :=
  match p with
  | .not => ~~~x
  | .neg => -x

/-- The closure an operation passes to `select_atomic_rmw!`. `atomic_store` is `atomic_swap`
(L206-L212). -/
def next : Op64 → BitVec 64 → BitVec 64
  | .store v | .swap v => fun _ => v
  | .rmw3 p v => next3 p v
  | .rmw2 p => next2 p
  | .load | .cas _ _ | .casWeak _ _ => id

/-- What an operation runs. -/
inductive Block where
  /-- `atomic_load_zacas`, L161-L204 -/
  | load (o : MemOrd)
  /-- `atomic_compare_exchange_zacas`, L295-L356, with the orderings it is given -/
  | cas (s f : MemOrd)
  /-- the loop of `select_atomic_rmw!`, L389-L414, whose compare-exchange is the given
  `atomic_compare_exchange_zacas` -/
  | rmw (s f : MemOrd)
  /-- the sequence lock, with an operation and orderings -/
  | fallback (op : Op64) (o f : MemOrd)
  /-- `unreachable!()`, or a loop whose compare-exchange takes the lock -/
  | unreachable

/-- The instructions of a block. `byte_wise_atomic_load`: L361-L378. -/
def Block.code (g : Cfg) (op : Op64) : Block → List Ins
  | .load o => loadAsm g o
  | .cas s f => [.pass fun _ => op.arg] ++ casAsm g (s.upgradeSuccess f) f ++ [.setGot .a4 .a5]
  | .rmw s f =>
    [.lw .outLo g.base 0, .lw .outHi g.base 4, .setPrev .outLo .outHi, .pass (next op)] ++
      casAsm g (s.upgradeSuccess f) f ++ [.setGot .a4 .a5, .ifSame 10, .retry, .jump 3]
  | .fallback _ _ _ | .unreachable => [.unreachable]

/-! ## Choice of the implementation -/

/-- `atomic_load`, L109-L160; `d` is what `detect().zacas()` answered. The fallback's orderings are those
of `outline_atomics.rs` L59-L66. -/
def loadBlock (g : Cfg) (d : Bool) (o : MemOrd) : Block :=
  if g.zacas then .load o
  else match o with
    | .relaxed => if d then .load .relaxed else .fallback .load .acquire .relaxed
    | .acquire => if d then .load .acquire else .fallback .load .acquire .relaxed
    | .seqCst => if d then .load .seqCst else .fallback .load .seqCst .relaxed
    | _ => .unreachable

/-- `atomic_compare_exchange`, L214-L294 (also the weak one, L359); `outline_atomics.rs` L106-L115. -/
def casBlock (g : Cfg) (d : Bool) (op : Op64) (s f : MemOrd) : Block :=
  if g.zacas then .cas s f
  else match s.upgradeSuccess f with
    | .relaxed => if d then .cas .relaxed .relaxed else .fallback op .acqRel .acquire
    | .acquire => if d then .cas .acquire .acquire else .fallback op .acqRel .acquire
    | .release => if d then .cas .release .relaxed else .fallback op .acqRel .acquire
    | .acqRel => if d then .cas .acqRel .acquire else .fallback op .acqRel .acquire
    | .seqCst => if d then .cas .seqCst .seqCst else .fallback op .seqCst .seqCst

/-- The `$zacas_fn` of `select_atomic_rmw!`, L389-L414: its compare-exchange is chosen again, with failure
ordering `Relaxed`. -/
def zacasFn (g : Cfg) (d : Bool) (op : Op64) (o : MemOrd) : Block :=
  match casBlock g d op o .relaxed with
  | .cas s f => .rmw s f
  | _ => .unreachable

/-- `$name` of `select_atomic_rmw!`, L415-L483; `outline_atomics.rs` L140-L145, L165-L170. -/
def rmwBlock (g : Cfg) (d : Bool) (op : Op64) (o : MemOrd) : Block :=
  if g.zacas then zacasFn g d op o
  else match o with
    | .relaxed => if d then zacasFn g d op .relaxed else .fallback op .acqRel .relaxed
    | .acquire => if d then zacasFn g d op .acquire else .fallback op .acqRel .relaxed
    | .release => if d then zacasFn g d op .release else .fallback op .acqRel .relaxed
    | .acqRel => if d then zacasFn g d op .acqRel else .fallback op .acqRel .relaxed
    | .seqCst => if d then zacasFn g d op .seqCst else .fallback op .seqCst .relaxed

/-- The block an operation runs. -/
def select (g : Cfg) (d : Bool) (op : Op64) (o f : MemOrd) : Block :=
  match op with
  | .load => loadBlock g d o
  | .store v => rmwBlock g d (.swap v) o
  | .cas _ _ | .casWeak _ _ => casBlock g d op o f
  | .swap _ | .rmw3 _ _ | .rmw2 _ => rmwBlock g d op o

/-! ## Calls -/

/-- Where the program runs. `det` is what run-time detection answers, `cpu` whether there is Zacas. -/
structure Env where
  cfg : Cfg
  det : Bool
  cpu : Bool

/-- A call: operation, orderings (`fail` for compare-exchange), address, and whatever is in registers and
uninitialized variables. -/
structure Call where
  op : Op64
  ord : MemOrd
  fail : MemOrd
  /-- panics for other orderings happen before (C15; `macros.rs`, `src/utils.rs` L394-L431) -/
  valid : op.OrdOk ord fail
  addr : BitVec 32
  st : St

/-- The block a call runs. -/
def Call.block (E : Env) (c : Call) : Block := select E.cfg E.det c.op c.ord c.fail

/-- State at the start: the address, for a load `inout("a2") 0, inout("a3") 0`, for a compare-exchange
the argument `old`. -/
def Call.entry (E : Env) (c : Call) : St :=
  let s := c.st.set E.cfg.base c.addr
  match c.op with
  | .load => (s.set .a2 0).set .a3 0
  | .cas old _ | .casWeak old _ => { s with prev := old }
  | _ => s

/-- The result: of a load the pair `a2`, `a3`; of compare-exchange `(prev, prev == old.whole)` (L354) made
into a `Result` (L293); nothing for a store; else what the last compare-exchange found. -/
def Call.result (c : Call) (s : St) : Res (BitVec 64) :=
  match c.op with
  | .load => .val (join (s.reg .a2) (s.reg .a3))
  | .store _ => .unit
  | .cas _ _ | .casWeak _ _ => if s.got == s.prev then .ok s.got else .err s.got
  | _ => .val s.got

/-- The back end. (No instruction reads the object in two parts, so the reading order is immaterial.) -/
def blocks (E : Env) : Blocks Call Ins St (BitVec 64) (BitVec 32) (Res (BitVec 64) × St) where
  prog c := (c.block E).code E.cfg c.op
  entry c := c.entry E
  sem c i s := i.sem E.cpu c.addr s
  out c s := (c.result s, s)
  order := fun _ _ => false

end Verif.Rv32
