import Verif.Ppc.Isa
import Verif.Spec.Wide
/-!
# The 128-bit operations of `src/imp/atomic128/powerpc64.rs`, instruction by instruction
-/
set_option autoImplicit false
namespace Verif.Ppc
open Verif.Lf Verif.Asm Verif.Wide

/-- Build configuration. -/
structure Cfg where
  /-- `quadword-atomics` enabled at compile time -/
  quad : Bool
  /-- `portable_atomic_pre_llvm_16` -/
  preLlvm16 : Bool

/-- `$acquire`, `$release`. -/
structure Mode where
  acq : Option Fence
  rel : Option Fence
deriving DecidableEq

/-- `atomic_rmw!`, L142-L153. -/
def rmwMode : MemOrd → Mode
  | .relaxed => ⟨none, none⟩
  | .acquire => ⟨some .isync, none⟩
  | .release => ⟨none, some .lwsync⟩
  | .acqRel => ⟨some .isync, some .lwsync⟩
  | .seqCst => ⟨some .isync, some .sync⟩

/-- `$acquire_always`, `$acquire_success`, `$release`. -/
structure CasMode where
  always : Option Fence
  success : Option Fence
  rel : Option Fence
deriving DecidableEq

/-- `atomic_cas!`, L154-L177 (`none` is `unreachable!()`). -/
def casMode (s f : MemOrd) : Option CasMode :=
  if f = .relaxed then
    match s with
    | .relaxed => some ⟨none, none, none⟩
    | .acquire => some ⟨none, some .isync, none⟩
    | .release => some ⟨none, none, some .lwsync⟩
    | .acqRel => some ⟨none, some .isync, some .lwsync⟩
    | .seqCst => some ⟨none, some .isync, some .sync⟩
  else
    match s.upgradeSuccess f with
    | .acquire => some ⟨some .isync, none, none⟩
    | .acqRel => some ⟨some .isync, none, some .lwsync⟩
    | .seqCst => some ⟨some .isync, none, some .sync⟩
    | _ => none

/-- The `asm!` blocks, and what else an operation may come to. -/
inductive Block where
  /-- `atomic_load_pwr8` with `Relaxed`, L273-L285 -/
  | load
  /-- `atomic_load_acquire!`, L251-L271 -/
  | loadAcq (rel : Option Fence)
  /-- `atomic_store_pwr8`, L352-L384 -/
  | store (rel : Option Fence)
  /-- `atomic_compare_exchange_pwr8`, L475-L533 -/
  | cas (m : CasMode)
  /-- `atomic_compare_exchange_weak_pwr8`, L561-L615 -/
  | casWeak (m : CasMode)
  /-- `atomic_swap_pwr8`, L619-L652 -/
  | swap (m : Mode)
  /-- `atomic_rmw_ll_sc_3!`, L662-L703 -/
  | rmw3 (o : Op3) (m : Mode)
  /-- `atomic_neg_pwr8`, L829-L841; the second under `portable_atomic_pre_llvm_16` -/
  | neg (old : Bool) (m : Mode)
  /-- the sequence lock (`fallback/outline_atomics.rs`), with the orderings passed on -/
  | fallback (o f : MemOrd)
  /-- `unreachable!()` -/
  | unreachable
deriving DecidableEq

/-! ## The blocks' instructions -/

/-- `""` or a barrier. -/
def fenceIf : Option Fence → List Ins
  | some k => [.fence k]
  | none => []

open Ins Reg in
/-- The operations of L754-L821. -/
def body3 : Op3 → List Ins
  | .add => [addc r9 valLo r7, adde r8 valHi r6]
  | .sub => [subc r9 r7 valLo, subfe r8 valHi r6]
  | .and => [and r9 valLo r7, and r8 valHi r6]
  | .nand => [nand r9 valLo r7, nand r8 valHi r6]
  | .or => [or r9 valLo r7, or r8 valHi r6]
  | .xor => [xor r9 valLo r7, xor r8 valHi r6]
  | .max => [cmpld r7 valLo, iselgt r9 r7 valLo, cmpdCr1 r6 valHi, isel r8 r7 valLo 5,
      cmpld r6 valHi, iseleq r9 r9 r8, isel r8 r6 valHi 5]
  | .umax => [cmpld r7 valLo, iselgt r9 r7 valLo, cmpld r6 valHi, iselgt r8 r7 valLo,
      iseleq r9 r9 r8, iselgt r8 r6 valHi]
  | .min => [cmpld r7 valLo, isellt r9 r7 valLo, cmpdCr1 r6 valHi, isel r8 r7 valLo 4,
      cmpld r6 valHi, iseleq r9 r9 r8, isel r8 r6 valHi 4]
  | .umin => [cmpld r7 valLo, isellt r9 r7 valLo, cmpld r6 valHi, isellt r8 r7 valLo,
      iseleq r9 r9 r8, isellt r8 r6 valHi]

open Ins Reg in
/-- `atomic_neg_pwr8`, L829-L841. -/
def bodyNeg (old : Bool) : List Ins :=
  if old then [subc r9 zero r7, subfze r8 r6] else [subfic r9 r7 0, subfze r8 r6]

open Ins Reg in
/-- The loop of `atomic_rmw_ll_sc_3!`, `atomic_rmw_ll_sc_2!` and `atomic_swap_pwr8`. -/
def loop (m : Mode) (body : List Ins) : List Ins :=
  fenceIf m.rel ++ ([lqarx r6 dst] ++ body ++ [stqcx r8 dst, .bne (fenceIf m.rel).length]) ++ fenceIf m.acq

open Ins Reg in
/-- The comparison of `atomic_compare_exchange_pwr8`. -/
def cmpOld : List Ins := [xor tmpLo r9 oldLo, xor tmpHi r8 oldHi, orDot tmpLo tmpLo tmpHi]

open Ins Reg in
/-- The instructions of a block. -/
def Block.code : Block → List Ins
  | .load => [lq r4 dst]
  | .loadAcq k => fenceIf k ++ [lq r4 dst, cmpw r4 r4, .bne ((fenceIf k).length + 3), fence .isync]
  | .store k => fenceIf k ++ [stq r4 dst]
  | .cas m => fenceIf m.rel ++ ([lqarx r8 dst] ++ cmpOld ++
      [.bne ((fenceIf m.rel).length + 7 + (fenceIf m.success).length), stqcx r6 dst,
        .bne (fenceIf m.rel).length]) ++ fenceIf m.success ++ fenceIf m.always ++ [mfcr tmpLo]
  | .casWeak m => fenceIf m.rel ++ ([lqarx r8 dst] ++ cmpOld ++
      [.bne ((fenceIf m.rel).length + 6 + (fenceIf m.success).length), stqcx r6 dst]) ++
      fenceIf m.success ++ fenceIf m.always ++ [mfcr tmpLo]
  | .swap m => loop m []
  | .rmw3 o m => loop m (body3 o)
  | .neg old m => loop m (bodyNeg old)
  | .fallback _ _ => []
  | .unreachable => [.unreachable]

/-! ## Operands -/

/-- The value argument; `atomic_not_pwr8` (L823-L827) is `atomic_xor_pwr8(dst, !0, order)`. -/
def argOf : WOp → BitVec 128
  | .rmw2 .not => ~~~0
  | op => op.arg

/-- Operand values other than the address: register and value. -/
def Block.ins (op : WOp) : Block → List (Reg × BitVec 64)
  | .store _ => [(.r4, X86.hi (argOf op)), (.r5, X86.lo (argOf op))]
  | .cas _ | .casWeak _ => [(.oldHi, X86.hi op.old), (.oldLo, X86.lo op.old),
      (.r6, X86.hi (argOf op)), (.r7, X86.lo (argOf op))]
  | .swap _ => [(.r8, X86.hi (argOf op)), (.r9, X86.lo (argOf op))]
  | .rmw3 _ _ => [(.valHi, X86.hi (argOf op)), (.valLo, X86.lo (argOf op))]
  | .neg true _ => [(.zero, 0)]
  | .load | .loadAcq _ | .neg false _ | .fallback _ _ | .unreachable => []

/-- Registers the operands declare as outputs. -/
def Block.outs : Block → List Reg
  | .load | .loadAcq _ => [.r4, .r5]
  | .cas _ | .casWeak _ => [.tmpHi, .tmpLo, .r8, .r9]
  | .swap _ => [.r6, .r7]
  | .rmw3 _ _ | .neg _ _ => [.r6, .r7, .r8, .r9]
  | .store _ | .fallback _ _ | .unreachable => []

/-- `out("cr0") _`. -/
def Block.clobCr0 : Block → Bool
  | .load | .store _ | .fallback _ _ | .unreachable => false
  | .loadAcq _ | .cas _ | .casWeak _ | .swap _ | .rmw3 _ _ | .neg _ _ => true

/-- `out("cr1") _`. -/
def Block.clobCr1 : Block → Bool
  | .rmw3 .max _ | .rmw3 .min _ => true
  | _ => false

/-- `out("xer") _`. -/
def Block.clobXer : Block → Bool
  | .rmw3 .add _ | .rmw3 .sub _ | .neg _ _ => true
  | _ => false

/-- The output operands forming `U128 { pair: Pair { hi, lo } }`. -/
def Block.resRegs : Block → Reg × Reg
  | .load | .loadAcq _ => (.r4, .r5)
  | .cas _ | .casWeak _ => (.r8, .r9)
  | _ => (.r6, .r7)

/-! ## Choice of the implementation -/

/-- `atomic_load_pwr8`, L242-L293. -/
def loadPwr8 : MemOrd → Block
  | .relaxed => .load
  | .acquire => .loadAcq none
  | .seqCst => .loadAcq (some .sync)
  | _ => .unreachable

/-- `atomic_load`, L181-L240; `d` is what `detect().quadword_atomics()` answered. The fallback's
orderings are those of `outline_atomics.rs` L59-L66. -/
def loadBlock (c : Cfg) (d : Bool) (o : MemOrd) : Block :=
  if c.quad then loadPwr8 o
  else match o with
    | .relaxed => if d then loadPwr8 .relaxed else .fallback .acquire .relaxed
    | .acquire => if d then loadPwr8 .acquire else .fallback .acquire .relaxed
    | .seqCst => if d then loadPwr8 .seqCst else .fallback .seqCst .relaxed
    | _ => .unreachable

/-- `atomic_store_pwr8`, L352-L384. -/
def storePwr8 : MemOrd → Block
  | .relaxed => .store none
  | .release => .store (some .lwsync)
  | .seqCst => .store (some .sync)
  | _ => .unreachable

/-- `atomic_store`, L295-L350; `outline_atomics.rs` L80-L86. -/
def storeBlock (c : Cfg) (d : Bool) (o : MemOrd) : Block :=
  if c.quad then storePwr8 o
  else match o with
    | .relaxed => if d then storePwr8 .relaxed else .fallback .release .relaxed
    | .release => if d then storePwr8 .release else .fallback .release .relaxed
    | .seqCst => if d then storePwr8 .seqCst else .fallback .seqCst .relaxed
    | _ => .unreachable

/-- `atomic_compare_exchange_pwr8`, L475-L533. -/
def casPwr8 (s f : MemOrd) : Block :=
  match casMode s f with
  | some m => .cas m
  | none => .unreachable

/-- `atomic_compare_exchange_weak_pwr8`, L561-L615. -/
def casWeakPwr8 (s f : MemOrd) : Block :=
  match casMode s f with
  | some m => .casWeak m
  | none => .unreachable

/-- `atomic_compare_exchange`, L386-L473; `outline_atomics.rs` L106-L115. -/
def casBlock (c : Cfg) (d : Bool) (s f : MemOrd) : Block :=
  if c.quad then casPwr8 s f
  else match s.upgradeSuccess f with
    | .relaxed => if d then casPwr8 .relaxed .relaxed else .fallback .acqRel .acquire
    | .acquire => if d then casPwr8 .acquire .acquire else .fallback .acqRel .acquire
    | .release => if d then casPwr8 .release .relaxed else .fallback .acqRel .acquire
    | .acqRel => if d then casPwr8 .acqRel .acquire else .fallback .acqRel .acquire
    | .seqCst => if d then casPwr8 .seqCst .seqCst else .fallback .seqCst .seqCst

/-- `atomic_compare_exchange_weak`, L535-L554. -/
def casWeakBlock (c : Cfg) (d : Bool) (s f : MemOrd) : Block :=
  if c.quad then casWeakPwr8 s f else casBlock c d s f

/-- `select_atomic_rmw!`, L843-L919; `outline_atomics.rs` L140-L145. -/
def rmwBlock (c : Cfg) (d : Bool) (b : Mode → Block) (o : MemOrd) : Block :=
  if c.quad then b (rmwMode o)
  else match o with
    | .relaxed => if d then b (rmwMode .relaxed) else .fallback .acqRel .relaxed
    | .acquire => if d then b (rmwMode .acquire) else .fallback .acqRel .relaxed
    | .release => if d then b (rmwMode .release) else .fallback .acqRel .relaxed
    | .acqRel => if d then b (rmwMode .acqRel) else .fallback .acqRel .relaxed
    | .seqCst => if d then b (rmwMode .seqCst) else .fallback .seqCst .relaxed

/-- The block an operation runs (L921-L1003). -/
def select (c : Cfg) (d : Bool) (op : WOp) (o f : MemOrd) : Block :=
  match op with
  | .load => loadBlock c d o
  | .store _ => storeBlock c d o
  | .swap _ => rmwBlock c d .swap o
  | .cas _ _ => casBlock c d o f
  | .casWeak _ _ => casWeakBlock c d o f
  | .rmw3 p _ => rmwBlock c d (.rmw3 p) o
  | .rmw2 .not => rmwBlock c d (.rmw3 .xor) o
  | .rmw2 .neg => rmwBlock c d (.neg c.preLlvm16) o

/-! ## Calls -/

/-- Where the program runs. `det` is what run-time detection answers. -/
structure Env where
  cfg : Cfg
  det : Bool
  cpu : Bool

/-- A call: operation, orderings (`fail` for compare-exchange), address, register allocation, and
whatever is in the registers. -/
structure Call where
  op : WOp
  ord : MemOrd
  fail : MemOrd
  /-- panics for other orderings happen before (C15; `macros.rs`, `src/utils.rs` L394-L431) -/
  valid : op.OrdOk ord fail
  addr : BitVec 64
  /-- which operand is in `r0`: not the address (`reg_nonzero`), not one in a fixed register -/
  r0 : Option Reg
  nonzero : ∀ q, r0 = some q → q = .valHi ∨ q = .valLo ∨ q = .oldHi ∨ q = .oldLo ∨ q = .tmpHi ∨ q = .tmpLo ∨
    q = .zero
  st : St

/-- The block a call runs. -/
def Call.block (E : Env) (c : Call) : Block := select E.cfg E.det c.op c.ord c.fail

/-- Processor state at the start of the block. -/
def Call.entry (E : Env) (c : Call) : St :=
  ((c.block E).ins c.op).foldr (fun p s => s.set p.1 p.2) (c.st.set .dst c.addr)

/-- `test_cr0_eq`, L178-L182. -/
def testCr0Eq (cr : BitVec 64) : Bool := cr &&& 0x20000000 != 0

/-- The result the Rust code makes of the outputs: for compare-exchange
`if test_cr0_eq(r) { Ok(prev) } else { Err(prev) }` (L472, L532, L553, L614), nothing for a store, else
the pair. -/
def Call.result (E : Env) (c : Call) (s : St) : Res (BitVec 128) :=
  let q := (c.block E).resRegs
  let prev := join (s.reg q.1) (s.reg q.2)
  match c.op with
  | .store _ => .unit
  | .cas _ _ | .casWeak _ _ => if testCr0Eq (s.reg .tmpLo) then .ok prev else .err prev
  | _ => .val prev

/-- The back end. (No instruction reads the object in two parts, so the reading order is immaterial.) -/
def blocks (E : Env) : Blocks Call Ins St (BitVec 128) (BitVec 64) (Res (BitVec 128) × St) where
  prog c := (c.block E).code
  entry c := c.entry E
  sem c i s := i.sem E.cpu c.r0 c.addr s
  out c s := (c.result E s, s)
  order := fun _ _ => false

end Verif.Ppc
