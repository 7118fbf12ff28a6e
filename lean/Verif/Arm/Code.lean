import Verif.Arm.Isa
import Verif.Spec.Wide
/-!
# The 128-bit operations of `src/imp/atomic128/aarch64.rs`, instruction by instruction

`select` follows the compile-time and run-time choice of the implementation, `Block.code` gives the
instructions of each `asm!` block, `entry` the registers at its start and `out` the value the Rust code
makes of the outputs.
-/
set_option autoImplicit false
namespace Verif.Arm
open Verif.Lf Verif.Asm Verif.Wide

/-- Build configuration. -/
structure Cfg where
  /-- `target_feature`/`portable_atomic_target_feature` -/
  feat : Feat
  /-- `portable_atomic_ll_sc_rmw` -/
  llScRmw : Bool
  /-- `target_env = "msvc"` -/
  msvc : Bool
  /-- `portable_atomic_pre_llvm_16` -/
  preLlvm16 : Bool
  /-- run-time detection of FEAT_LSE2 (and LSE128, LRCPC3) on this platform (L507-L530) -/
  detLse2 : Bool
  /-- run-time detection of FEAT_LSE on this platform (L1272-L1296) -/
  detLse : Bool

/-- `Ordering` to `$acquire`, `$release`, `$msvc_fence`. -/
structure Mode where
  acq : Bool
  rel : Bool
  fence : Bool
deriving DecidableEq

/-- `atomic_rmw!`, L430-L452. -/
def rmwMode (msvc : Bool) (order write : MemOrd) : Mode :=
  match order with
  | .relaxed => ⟨false, false, false⟩
  | .acquire => ⟨true, false, false⟩
  | .release => ⟨false, true, false⟩
  | .acqRel => ⟨true, true, false⟩
  | .seqCst => if msvc && write == .seqCst then ⟨true, true, true⟩ else ⟨true, true, false⟩

/-- `atomic_rmw_inst!`, L462-L484: the order digit. -/
def instDigit (order : MemOrd) : BitVec 4 :=
  match order with
  | .relaxed => 0x2#4
  | .acquire => 0xa#4
  | .release => 0x6#4
  | .acqRel => 0xe#4
  | .seqCst => 0xe#4

/-- How a lateout operand shares its register with the address. -/
inductive Alias where
  | none | lo | hi
deriving DecidableEq

/-- The `asm!` blocks. -/
inductive Block where
  /-- `_atomic_load_ldp`, L655-L703 -/
  | ldp (o : MemOrd)
  /-- `_atomic_load_ldiapp`, L716-L789; `inst` under `portable_atomic_pre_llvm_16` -/
  | ldiapp (inst : Bool) (o : MemOrd)
  /-- `_atomic_load_casp`, L794-L824 -/
  | loadCasp (acq rel : Bool)
  /-- `_atomic_load_ldxp_stxp`, L833-L864 -/
  | loadLx (acq rel : Bool)
  /-- `_atomic_store_stp`, L1084-L1144 -/
  | stp (before after : Bool)
  /-- `_atomic_store_stilp`, L1159-L1208 -/
  | stilp (inst : Bool) (after : Bool)
  /-- `_atomic_store_ldxp_stxp`, L1218-L1242 -/
  | storeLx (m : Mode)
  /-- `_atomic_compare_exchange_casp`, L1447-L1486 -/
  | casCasp (m : Mode)
  /-- `_atomic_compare_exchange_ldxp_stxp`, L1489-L1548 -/
  | casLx (m : Mode)
  /-- `_atomic_swap_swpp`, L1604-L1650; `atomic_and` L2018-L2063; `atomic_or` L2094-L2139 -/
  | pair (k : Pair128) (m : Mode)
  /-- the same with `.inst` -/
  | pairInst (k : Pair128) (d : BitVec 4)
  /-- `_atomic_swap_casp`, L1655-L1698 -/
  | swapCasp (m : Mode)
  /-- `_atomic_swap_ldxp_stxp`, L1708-L1736 -/
  | swapLx (m : Mode)
  /-- `atomic_rmw_ll_sc_3!`, L1745-L1794 -/
  | rmw3Lx (o : Op3) (m : Mode)
  /-- `atomic_rmw_cas_3!`, L1802-L1861 -/
  | rmw3Cas (o : Op3) (m : Mode)
  /-- `atomic_rmw_ll_sc_2!`, L1869-L1915 -/
  | rmw2Lx (o : Op2) (m : Mode)
  /-- `atomic_rmw_cas_2!`, L1922-L1978 -/
  | rmw2Cas (o : Op2) (m : Mode)
  /-- `unreachable!()` -/
  | unreachable
deriving DecidableEq

/-! ## The blocks' instructions -/

/-- `select_le_or_be!`, L417-L428. -/
def sel {α : Type} (e : Endian) (le be : α) : α :=
  match e with
  | .little => le
  | .big => be

open Ins Reg in
/-- The `_ldxp_stxp` operations of L1981-L2237. -/
def bodyLx3 (e : Endian) : Op3 → List Ins
  | .add => [sel e (adds newLo prevLo valLo) (adds newHi prevHi valHi),
      sel e (adc newHi prevHi valHi) (adc newLo prevLo valLo)]
  | .sub => [sel e (subs newLo prevLo valLo) (subs newHi prevHi valHi),
      sel e (sbc newHi prevHi valHi) (sbc newLo prevLo valLo)]
  | .and => [and newLo prevLo valLo, and newHi prevHi valHi]
  | .nand => [and newLo prevLo valLo, and newHi prevHi valHi, mvn newLo newLo, mvn newHi newHi]
  | .or => [orr newLo prevLo valLo, orr newHi prevHi valHi]
  | .xor => [eor newLo prevLo valLo, eor newHi prevHi valHi]
  | .max => [sel e (cmp valLo prevLo) (cmp valHi prevHi),
      sel e (sbcs xzr valHi prevHi) (sbcs xzr valLo prevLo),
      csel newHi prevHi valHi .lt, csel newLo prevLo valLo .lt]
  | .umax => [sel e (cmp valLo prevLo) (cmp valHi prevHi),
      sel e (sbcs xzr valHi prevHi) (sbcs xzr valLo prevLo),
      csel newHi prevHi valHi .lo, csel newLo prevLo valLo .lo]
  | .min => [sel e (cmp valLo prevLo) (cmp valHi prevHi),
      sel e (sbcs xzr valHi prevHi) (sbcs xzr valLo prevLo),
      csel newHi prevHi valHi .ge, csel newLo prevLo valLo .ge]
  | .umin => [sel e (cmp valLo prevLo) (cmp valHi prevHi),
      sel e (sbcs xzr valHi prevHi) (sbcs xzr valLo prevLo),
      csel newHi prevHi valHi .hs, csel newLo prevLo valLo .hs]

open Ins Reg in
/-- The `_casp` operations of L1981-L2237. -/
def bodyCas3 (e : Endian) : Op3 → List Ins
  | .add => [sel e (adds x4 x6 valLo) (adds x5 x7 valHi), sel e (adc x5 x7 valHi) (adc x4 x6 valLo)]
  | .sub => [sel e (subs x4 x6 valLo) (subs x5 x7 valHi), sel e (sbc x5 x7 valHi) (sbc x4 x6 valLo)]
  | .and => [and x4 x6 valLo, and x5 x7 valHi]
  | .nand => [and x4 x6 valLo, and x5 x7 valHi, mvn x4 x4, mvn x5 x5]
  | .or => [orr x4 x6 valLo, orr x5 x7 valHi]
  | .xor => [eor x4 x6 valLo, eor x5 x7 valHi]
  | .max => [sel e (cmp valLo x6) (cmp valHi x7), sel e (sbcs xzr valHi x7) (sbcs xzr valLo x6),
      csel x5 x7 valHi .lt, csel x4 x6 valLo .lt]
  | .umax => [sel e (cmp valLo x6) (cmp valHi x7), sel e (sbcs xzr valHi x7) (sbcs xzr valLo x6),
      csel x5 x7 valHi .lo, csel x4 x6 valLo .lo]
  | .min => [sel e (cmp valLo x6) (cmp valHi x7), sel e (sbcs xzr valHi x7) (sbcs xzr valLo x6),
      csel x5 x7 valHi .ge, csel x4 x6 valLo .ge]
  | .umin => [sel e (cmp valLo x6) (cmp valHi x7), sel e (sbcs xzr valHi x7) (sbcs xzr valLo x6),
      csel x5 x7 valHi .hs, csel x4 x6 valLo .hs]

open Ins Reg in
/-- `atomic_not`, `atomic_neg` by `ldxp`/`stxp`, L2153-L2176. -/
def bodyLx2 (e : Endian) : Op2 → List Ins
  | .not => [mvn newLo prevLo, mvn newHi prevHi]
  | .neg => [sel e (negs newLo prevLo) (negs newHi prevHi), sel e (ngc newHi prevHi) (ngc newLo prevLo)]

open Ins Reg in
/-- `atomic_not`, `atomic_neg` by `casp`, L2153-L2176. -/
def bodyCas2 (e : Endian) : Op2 → List Ins
  | .not => [mvn x4 x6, mvn x5 x7]
  | .neg => [sel e (negs x4 x6) (negs x5 x7), sel e (ngc x5 x7) (ngc x4 x6)]

/-- `$msvc_fence`. -/
def fenceIf (b : Bool) : List Ins := if b then [.dmb .ish] else []

open Ins Reg in
/-- The loop of `atomic_rmw_ll_sc_3!`/`atomic_rmw_ll_sc_2!`. -/
def loopLx (m : Mode) (body : List Ins) : List Ins :=
  [ldxp m.acq prevLo prevHi dst] ++ body ++ [stxp m.rel r newLo newHi dst, cbnz r 0] ++ fenceIf m.fence

open Ins Reg in
/-- The loop of `atomic_rmw_cas_3!`/`atomic_rmw_cas_2!`. -/
def loopCas (m : Mode) (body : List Ins) : List Ins :=
  [ldp x6 x7 dst, mov tmpLo x6, mov tmpHi x7] ++ body ++
    [casp m.acq m.rel x6 x7 x4 x5 dst, cmp tmpHi x7, ccmp tmpLo x6 .eq, bne 1]

/-- The word of an FEAT_LSE128 instruction: `concat!(".inst 0x19", $order, "18002")` and so on. -/
def pairWord (k : Pair128) (d : BitVec 4) : BitVec 32 :=
  0x19#8 ++ d ++ (match k with
    | .swpp => 0x18002#20
    | .ldclrp => 0x11008#20
    | .ldsetp => 0x13002#20)

/-- The register of the address in a block with `lateout` outputs. -/
def Alias.base : Alias → Reg
  | .none => .dst
  | .lo => .outLo
  | .hi => .outHi

open Ins Reg in
/-- The instructions of a block. -/
def Block.code (e : Endian) (al : Alias) : Block → List Ins
  | .ldp .relaxed => [.ldp outLo outHi al.base]
  | .ldp .acquire => [.ldp outLo outHi al.base, .dmb .ishld]
  | .ldp .seqCst => [.ldar tmp al.base, .ldp outLo outHi al.base, .dmb .ishld]
  | .ldp _ => [.unreachable]
  | .ldiapp false .acquire => [.ldiapp outLo outHi al.base]
  | .ldiapp false .seqCst => [.ldar tmp al.base, .ldiapp outLo outHi al.base]
  | .ldiapp true .acquire => [.inst 0xd9411800#32]
  | .ldiapp true .seqCst => [.ldar tmp x0, .inst 0xd9411800#32]
  | .ldiapp _ _ => [.unreachable]
  | .loadCasp a l => [.casp a l x2 x3 x2 x3 dst]
  | .loadLx a l => [.ldxp a outLo outHi dst, .stxp l r outLo outHi dst, .cbnz r 0]
  | .stp b a => fenceIf b ++ [.stp valLo valHi dst] ++ fenceIf a
  | .stilp false a => [.stilp valLo valHi dst] ++ fenceIf a
  | .stilp true a => [.inst 0xd9031802#32] ++ fenceIf a
  | .storeLx m => [.ldxp m.acq xzr tmp dst, .stxp m.rel tmp valLo valHi dst, .cbnz tmp 0] ++ fenceIf m.fence
  | .casCasp m => [.casp m.acq m.rel x6 x7 x4 x5 dst]
  | .casLx m => [.ldxp m.acq prevLo prevHi dst, .cmp prevLo oldLo, .ccmp prevHi oldHi .eq,
      .csel tmpLo newLo prevLo .eq, .csel tmpHi newHi prevHi .eq,
      .stxp m.rel r tmpLo tmpHi dst, .cbnz r 0] ++ fenceIf m.fence
  | .pair k m => [.pair k m.acq m.rel valLo valHi dst]
  | .pairInst k d => [.inst (pairWord k d)]
  | .swapCasp m => [.ldp x4 x5 dst, .mov tmpLo x4, .mov tmpHi x5, .casp m.acq m.rel x4 x5 x2 x3 dst,
      .cmp tmpHi x5, .ccmp tmpLo x4 .eq, .bne 1]
  | .swapLx m => [.ldxp m.acq prevLo prevHi dst, .stxp m.rel r valLo valHi dst, .cbnz r 0] ++
      fenceIf m.fence
  | .rmw3Lx o m => loopLx m (bodyLx3 e o)
  | .rmw3Cas o m => loopCas m (bodyCas3 e o)
  | .rmw2Lx o m => loopLx m (bodyLx2 e o)
  | .rmw2Cas o m => loopCas m (bodyCas2 e o)
  | .unreachable => [.unreachable]

/-! ## Operands -/

/-- The register holding the address. -/
def Block.base (al : Alias) : Block → Reg
  | .ldp _ | .ldiapp false _ => al.base
  | .ldiapp true _ | .stilp true _ | .pairInst _ _ => .x0
  | _ => .dst

/-- Operand values other than the address: register and value. -/
def Block.ins (e : Endian) (op : WOp) : Block → List (Reg × BitVec 64)
  | .loadCasp _ _ => [(.x2, 0), (.x3, 0)]
  | .stp _ _ | .stilp false _ | .storeLx _ | .swapLx _ =>
    [(.valLo, word e op.arg false), (.valHi, word e op.arg true)]
  | .stilp true _ | .swapCasp _ => [(.x2, word e op.arg false), (.x3, word e op.arg true)]
  | .casCasp _ => [(.x6, word e op.old false), (.x7, word e op.old true),
      (.x4, word e op.arg false), (.x5, word e op.arg true)]
  | .casLx _ => [(.oldLo, word e op.old false), (.oldHi, word e op.old true),
      (.newLo, word e op.arg false), (.newHi, word e op.arg true)]
  | .pair .ldclrp _ => [(.valLo, word e (~~~op.arg) false), (.valHi, word e (~~~op.arg) true)]
  | .pair _ _ => [(.valLo, word e op.arg false), (.valHi, word e op.arg true)]
  | .pairInst .ldclrp _ => [(.x8, word e (~~~op.arg) false), (.x1, word e (~~~op.arg) true)]
  | .pairInst _ _ => [(.x2, word e op.arg false), (.x1, word e op.arg true)]
  | .rmw3Lx _ _ | .rmw3Cas _ _ => [(.valLo, word e op.arg false), (.valHi, word e op.arg true)]
  | .ldp _ | .ldiapp _ _ | .loadLx _ _ | .rmw2Lx _ _ | .rmw2Cas _ _ | .unreachable => []

/-- Registers the operands declare as outputs (clobbered ones included). -/
def Block.outs (al : Alias) : Block → List Reg
  | .ldp .seqCst | .ldiapp false .seqCst => [.outLo, .outHi, .tmp]
  | .ldp _ | .ldiapp false _ => [.outLo, .outHi]
  | .ldiapp true .seqCst => [.x0, .x1, .tmp]
  | .ldiapp true _ => [.x0, .x1]
  | .loadCasp _ _ => [.x2, .x3]
  | .loadLx _ _ => [.outLo, .outHi, .r]
  | .stp _ _ | .stilp _ _ => []
  | .storeLx _ => [.tmp]
  | .casCasp _ => [.x6, .x7]
  | .casLx _ => [.prevLo, .prevHi, .r, .tmpLo, .tmpHi]
  | .pair _ _ => [.valLo, .valHi]
  | .pairInst .ldclrp _ => [.x8, .x1]
  | .pairInst _ _ => [.x2, .x1]
  | .swapCasp _ => [.tmpLo, .tmpHi, .x4, .x5]
  | .swapLx _ => [.prevLo, .prevHi, .r]
  | .rmw3Lx _ _ | .rmw2Lx _ _ => [.prevLo, .prevHi, .newLo, .newHi, .r]
  | .rmw3Cas _ _ | .rmw2Cas _ _ => [.tmpLo, .tmpHi, .x6, .x7, .x4, .x5]
  | .unreachable => []

/-- `options(.., preserves_flags)`. -/
def Block.preservesFlags : Block → Bool
  | .casLx _ | .swapCasp _ | .rmw3Cas _ _ | .rmw2Cas _ _ => false
  | .rmw3Lx o _ => match o with
    | .and | .nand | .or | .xor => true
    | .add | .sub | .max | .umax | .min | .umin => false
  | .rmw2Lx o _ => match o with
    | .not => true
    | .neg => false
  | _ => true

/-- The output operands forming `U128 { pair: Pair { lo, hi } }`. -/
def Block.resRegs : Block → Reg × Reg
  | .ldp _ | .ldiapp false _ | .loadLx _ _ => (.outLo, .outHi)
  | .ldiapp true _ => (.x0, .x1)
  | .loadCasp _ _ => (.x2, .x3)
  | .casCasp _ | .rmw3Cas _ _ | .rmw2Cas _ _ => (.x6, .x7)
  | .casLx _ | .swapLx _ | .rmw3Lx _ _ | .rmw2Lx _ _ => (.prevLo, .prevHi)
  | .pair _ _ => (.valLo, .valHi)
  | .pairInst .ldclrp _ => (.x8, .x1)
  | .pairInst _ _ => (.x2, .x1)
  | .swapCasp _ => (.x4, .x5)
  | .stp _ _ | .stilp _ _ | .storeLx _ | .unreachable => (.xzr, .xzr)

/-! ## Choice of the implementation -/

/-- `_atomic_swap_swpp` L1604-L1650, `atomic_and` L2018-L2063, `atomic_or` L2094-L2139. -/
def pairBlock (c : Cfg) (k : Pair128) (o : MemOrd) : Block :=
  if c.preLlvm16 then .pairInst k (instDigit o) else .pair k (rmwMode c.msvc o o)

/-- `_atomic_load_ldiapp`, L716-L789. -/
def ldiappBlock (c : Cfg) (o : MemOrd) : Block := .ldiapp c.preLlvm16 o

/-- `_atomic_load_ldp`, L655-L703. -/
def ldpBlock (c : Cfg) (o : MemOrd) : Block :=
  match o with
  | .acquire | .seqCst => if c.feat.rcpc3 then ldiappBlock c o else .ldp o
  | o => .ldp o

/-- `_atomic_load_casp`, `_atomic_load_ldxp_stxp`: `$acquire`, `$release` (L815-L821, L855-L861). -/
def loadMode : MemOrd → Option (Bool × Bool)
  | .relaxed => some (false, false)
  | .acquire => some (true, false)
  | .seqCst => some (true, true)
  | _ => none

/-- `atomic_load_no_lse2`, L630-L643. -/
def loadNoLse2 (c : Cfg) (o : MemOrd) : Block :=
  match loadMode o with
  | some (a, l) => if c.feat.lse then .loadCasp a l else .loadLx a l
  | none => .unreachable

/-- `atomic_load`, L512-L627; `d` is what `detect::detect()` answered. -/
def loadBlock (c : Cfg) (d : Feat) (o : MemOrd) : Block :=
  if c.feat.lse2 then ldpBlock c o
  else if c.detLse2 then
    match o with
    | .relaxed => if d.lse2 then ldpBlock c .relaxed else loadNoLse2 c .relaxed
    | .acquire =>
      if d.lse2 then
        if !c.feat.rcpc3 && d.rcpc3 then ldiappBlock c .acquire else ldpBlock c .acquire
      else loadNoLse2 c .acquire
    | .seqCst =>
      if d.lse2 then
        if !c.feat.rcpc3 && d.rcpc3 then ldiappBlock c .seqCst else ldpBlock c .seqCst
      else loadNoLse2 c .seqCst
    | _ => .unreachable
  else loadNoLse2 c o

/-- `_atomic_store_stilp`, L1159-L1208. -/
def stilpBlock (c : Cfg) (o : MemOrd) : Block :=
  match o with
  | .release => .stilp c.preLlvm16 false
  | .seqCst => .stilp c.preLlvm16 true
  | _ => .unreachable

/-- `_atomic_store_stp`, L1084-L1144. -/
def stpBlock (c : Cfg) (o : MemOrd) : Block :=
  match o with
  | .seqCst =>
    if c.feat.lse128 then pairBlock c .swpp .seqCst
    else if c.feat.rcpc3 then stilpBlock c .seqCst
    else .stp true true
  | .release =>
    if c.feat.rcpc3 then stilpBlock c .release
    else if c.feat.lse128 then pairBlock c .swpp .release
    else .stp true false
  | .relaxed => .stp false false
  | _ => .unreachable

/-- `_atomic_swap_casp`, L1655-L1698. -/
def swapCaspBlock (c : Cfg) (o : MemOrd) : Block := .swapCasp (rmwMode c.msvc o o)

/-- `atomic_store_no_lse2`, L1050-L1076. -/
def storeNoLse2 (c : Cfg) (o : MemOrd) : Block :=
  if c.feat.lse && !c.llScRmw then swapCaspBlock c o else .storeLx (rmwMode c.msvc o o)

/-- `atomic_store`, L891-L1048. -/
def storeBlock (c : Cfg) (d : Feat) (o : MemOrd) : Block :=
  if c.feat.lse2 then stpBlock c o
  else if c.detLse2 then
    match o with
    | .relaxed => if d.lse2 then stpBlock c .relaxed else storeNoLse2 c .relaxed
    | .release =>
      if d.lse2 then
        if !c.feat.rcpc3 && d.rcpc3 then stilpBlock c .release
        else if !c.feat.rcpc3 && !c.feat.lse128 && d.lse128 then pairBlock c .swpp .release
        else stpBlock c .release
      else storeNoLse2 c .release
    | .seqCst =>
      if d.lse2 then
        if !c.feat.lse128 && d.lse128 then pairBlock c .swpp .seqCst
        else if !c.feat.lse128 && !c.feat.rcpc3 && d.rcpc3 then stilpBlock c .seqCst
        else stpBlock c .seqCst
      else storeNoLse2 c .seqCst
    | _ => .unreachable
  else storeNoLse2 c o

/-- `_atomic_compare_exchange_casp`, L1447-L1486. -/
def casCaspBlock (c : Cfg) (s f : MemOrd) : Block := .casCasp (rmwMode c.msvc (s.upgradeSuccess f) s)

/-- `_atomic_compare_exchange_ldxp_stxp`, L1489-L1548. -/
def casLxBlock (c : Cfg) (s f : MemOrd) : Block := .casLx (rmwMode c.msvc (s.upgradeSuccess f) s)

/-- `atomic_compare_exchange`, L1258-L1438. -/
def casBlock (c : Cfg) (d : Feat) (s f : MemOrd) : Block :=
  if c.feat.lse then casCaspBlock c s f
  else if c.detLse then
    match s.upgradeSuccess f with
    | .relaxed => if d.lse then casCaspBlock c .relaxed .relaxed else casLxBlock c .relaxed .relaxed
    | .acquire => if d.lse then casCaspBlock c .acquire .acquire else casLxBlock c .acquire .acquire
    | .release => if d.lse then casCaspBlock c .release .relaxed else casLxBlock c .release .relaxed
    | .acqRel => if d.lse then casCaspBlock c .acqRel .acquire else casLxBlock c .acqRel .acquire
    | .seqCst =>
      if d.lse then casCaspBlock c .acqRel .acquire
      else if c.msvc then casLxBlock c .seqCst .seqCst
      else casLxBlock c .acqRel .acquire
  else casLxBlock c s f

/-- `atomic_swap`, L1574-L1592. -/
def swapBlock (c : Cfg) (o : MemOrd) : Block :=
  if c.feat.lse128 then pairBlock c .swpp o
  else if c.feat.lse && !c.llScRmw then swapCaspBlock c o
  else .swapLx (rmwMode c.msvc o o)

/-- Three-argument read-modify-writes, L1745-L1861 and L1981-L2237. -/
def rmw3Block (c : Cfg) (p : Op3) (o : MemOrd) : Block :=
  let plain := if c.feat.lse && !c.llScRmw then Block.rmw3Cas p (rmwMode c.msvc o o)
    else .rmw3Lx p (rmwMode c.msvc o o)
  match p with
  | .and => if c.feat.lse128 then pairBlock c .ldclrp o else plain
  | .or => if c.feat.lse128 then pairBlock c .ldsetp o else plain
  | _ => plain

/-- Two-argument read-modify-writes, L1869-L1978 and L2153-L2176. -/
def rmw2Block (c : Cfg) (p : Op2) (o : MemOrd) : Block :=
  if c.feat.lse && !c.llScRmw then .rmw2Cas p (rmwMode c.msvc o o)
  else .rmw2Lx p (rmwMode c.msvc o o)

/-- The block an operation runs. -/
def select (c : Cfg) (d : Feat) (op : WOp) (o f : MemOrd) : Block :=
  match op with
  | .load => loadBlock c d o
  | .store _ => storeBlock c d o
  | .swap _ => swapBlock c o
  -- L1551-L1554: weak is strong
  | .cas _ _ | .casWeak _ _ => casBlock c d o f
  | .rmw3 p _ => rmw3Block c p o
  | .rmw2 p => rmw2Block c p o

/-! ## Calls -/

/-- Where the program runs. `det` is what run-time detection answers. -/
structure Env where
  cfg : Cfg
  det : Feat
  cpu : Feat
  endian : Endian

/-- A call: operation, orderings (`fail` for compare-exchange), register allocation, address, and
whatever is in the registers and flags. -/
structure Call where
  op : WOp
  ord : MemOrd
  fail : MemOrd
  /-- panics for other orderings happen before (C15; `macros.rs`, `src/utils.rs` L394-L431) -/
  valid : op.OrdOk ord fail
  al : Alias
  addr : BitVec 64
  st : St

/-- The block a call runs. -/
def Call.block (E : Env) (c : Call) : Block := select E.cfg E.det c.op c.ord c.fail

/-- Processor state at the start of the block: the `in`/`inout` operands over whatever was there. -/
def Call.entry (E : Env) (c : Call) : St :=
  ((c.block E).ins E.endian c.op).foldr (fun p s => s.set p.1 p.2) (c.st.set ((c.block E).base c.al) c.addr)

/-- The result the Rust code makes of the outputs: `if prev == old { Ok(prev) } else { Err(prev) }`
(L1437) for compare-exchange, nothing for a store, else the pair. -/
def Call.result (E : Env) (c : Call) (s : St) : Res (BitVec 128) :=
  let q := (c.block E).resRegs
  let prev := join E.endian (s.get q.1) (s.get q.2)
  match c.op with
  | .store _ => .unit
  | .cas old _ | .casWeak old _ => if prev = old then .ok prev else .err prev
  | _ => .val prev

/-- The back end. `order` says which word each `ldxp` reads first. -/
def blocks (E : Env) (order : Call → Nat → Bool) :
    Blocks Call Ins St (BitVec 128) (BitVec 64) (Res (BitVec 128) × St) where
  prog c := (c.block E).code E.endian c.al
  entry c := c.entry E
  sem c i s := i.sem E.cpu E.endian c.addr s
  out c s := (c.result E s, s)
  order := order

end Verif.Arm
