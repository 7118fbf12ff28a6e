import Verif.Asm.Points
import Verif.Float.Code
import Verif.Spec.ArmOrder
/-!
# The FEAT_LSFE instructions of `src/imp/float/aarch64.rs`, as emitted

`fetch_add`, `fetch_sub`, `fetch_max`, `fetch_min` of `AtomicF16`, `AtomicF32`, `AtomicF64` are one `asm!`
block each, in two versions: with mnemonics, and, for LLVM older than 20, with the instruction given as a
number.  Here the blocks, the numbers and the registers are modelled; `Verif.Float.Code` has the
operations above them.  Meanings and encodings are those of the Arm Architecture Reference Manual
(trusted).  The other operations of the types are integer atomics of the same size
(`src/imp/float/int.rs`); they appear as single accesses (`Ins.core`).
-/
set_option autoImplicit false
namespace Verif.Lsfe
open Verif.Lf Verif.Asm Verif.Float

/-! ## The processor -/

/-- Operand sizes of the instructions: half, single, double precision. -/
inductive Sz where
  | h | s | d
deriving DecidableEq

/-- Size in bits. -/
def Sz.bits : Sz → Nat
  | .h => 16
  | .s => 32
  | .d => 64

/-- Operations of the instructions. `fmax` and `fmin` (LDFMAX, LDFMIN), which return NaN if an operand is
NaN, are not those the crate wants. -/
inductive FK where
  | add | fmax | fmin | maxnm | minnm
deriving DecidableEq

/-- Processor state: general and vector registers, and the result of a call that is an integer atomic. -/
structure St (w : Nat) where
  x : BitVec 5 → BitVec 64
  v : BitVec 5 → BitVec 128
  res : Res (BitVec w)

/-- Write a vector register. -/
def St.setV {w : Nat} (s : St w) (q : BitVec 5) (y : BitVec 128) : St w :=
  { s with v := fun p => if p = q then y else s.v p }

/-- Write a general register. -/
def St.setX {w : Nat} (s : St w) (q : BitVec 5) (y : BitVec 64) : St w :=
  { s with x := fun p => if p = q then y else s.x p }

/-- Instructions. -/
inductive Ins (w : Nat) where
  /-- `ldf<k>{a}{l} <sz>rs, <sz>rt, [xrn]` -/
  | ldf (k : FK) (sz : Sz) (acq rel : Bool) (rs rt rn : BitVec 5)
  /-- `.inst` -/
  | word (n : BitVec 32)
  /-- an operation of the integer atomic (not of this file) -/
  | core (op : Op (BitVec w))

/-- The operation in the field `o3 opc`. -/
def FK.ofCode (n : BitVec 4) : Option FK :=
  match n with
  | 0b0000#4 => some .add
  | 0b0100#4 => some .fmax
  | 0b0101#4 => some .fmin
  | 0b0110#4 => some .maxnm
  | 0b0111#4 => some .minnm
  | _ => none

/-- The size in the field `size`; `00` is the BFloat16 instruction. -/
def Sz.ofCode (n : BitVec 2) : Option Sz :=
  match n with
  | 0b01#2 => some .h
  | 0b10#2 => some .s
  | 0b11#2 => some .d
  | _ => none

/-- Decoder, for all registers.  From the manual, "Atomic memory operations", SIMD&FP: `size 111 1 00 A R 1
Rs o3 opc 00 Rn Rt`. -/
def decode {w : Nat} (n : BitVec 32) : Option (Ins w) :=
  if n.extractLsb' 24 6 = 0b111100#6 ∧ n.extractLsb' 21 1 = 1#1 ∧ n.extractLsb' 10 2 = 0#2 then
    match Sz.ofCode (n.extractLsb' 30 2), FK.ofCode (n.extractLsb' 12 4) with
    | some sz, some k => some (.ldf k sz (n.getLsbD 23) (n.getLsbD 22) (n.extractLsb' 16 5)
        (n.extractLsb' 0 5) (n.extractLsb' 5 5))
    | _, _ => none
  else none

/-- What the float unit of a processor computes, in one execution of an instruction, from the value in
memory and the operand. -/
structure Fpu (w : Nat) where
  out : FK → BitVec w → BitVec w → BitVec w

/-- Where the program runs. -/
structure Cpu where
  lsfe : Bool

/-- Meaning of an instruction other than `.inst`, for the object of `w` bits at `addr`.  The operand is the
low `w` bits of its register; a write to a register of less than 128 bits clears the others.  An
instruction of another size, for another address or with the stack pointer as base is a fault here. -/
def Ins.eff {w : Nat} (cpu : Cpu) (F : Fpu w) (addr : BitVec 64) (i : Ins w) (s : St w) :
    Eff (St w) (BitVec w) (BitVec w) :=
  match i with
  | .ldf k sz _ _ rs rt rn =>
    if cpu.lsfe ∧ sz.bits = w ∧ rn ≠ 31 ∧ s.x rn = addr then
      .acc (.op (.rmw (fun x => F.out k x ((s.v rs).setWidth w)) .relaxed)) fun
        | .val x => s.setV rt (x.setWidth 128)
        | _ => s
    else .fault
  | .core op => .acc (.op op) fun r => { s with res := r }
  | .word _ => .fault

/-- Meaning of an instruction. -/
def Ins.sem {w : Nat} (cpu : Cpu) (F : Fpu w) (addr : BitVec 64) (i : Ins w) (s : St w) :
    Eff (St w) (BitVec w) (BitVec w) :=
  match i with
  | .word n => match decode n with
    | some j => j.eff cpu F addr s
    | none => .fault
  | i => i.eff cpu F addr s

/-- Events of an instruction that is not `.inst`: a read and a write, with the annotations. -/
def Ins.ev {w : Nat} : Ins w → List Arm.Ev
  | .ldf _ _ acq rel _ _ _ => [.rd (if acq then .full else .plain) true, .wr rel true]
  | _ => []

/-- Events of an instruction. -/
def Ins.events {w : Nat} : Ins w → List Arm.Ev
  | .word n => match decode (w := w) n with
    | some j => j.ev
    | none => []
  | i => i.ev

/-! ## The crate's code -/

/-- The types with these operations, L224-L227. -/
inductive FTy where
  | f16 | f32 | f64
deriving DecidableEq

/-- Size in bits. -/
def FTy.bits : FTy → Nat
  | .f16 => 16
  | .f32 => 32
  | .f64 => 64

/-- `$modifier`, L224-L227: the size letter in the mnemonic's operands. -/
def FTy.modifier : FTy → Sz
  | .f16 => .h
  | .f32 => .s
  | .f64 => .d

/-- `$inst_modifier`, L224-L227: the first hexadecimal digit. -/
def FTy.instModifier : FTy → BitVec 4
  | .f16 => 0x7#4
  | .f32 => 0xb#4
  | .f64 => 0xf#4

/-- `atomic_rmw!`, L34-L55: `$acquire`, `$release`, `$_msvc_fence`. -/
def atomicRmw (msvc : Bool) (order : MemOrd) : Bool × Bool × Bool :=
  match order with
  | .relaxed => (false, false, false)
  | .acquire => (true, false, false)
  | .release => (false, true, false)
  | .acqRel => (true, true, false)
  | .seqCst => if msvc then (true, true, true) else (true, true, false)

/-- `atomic_rmw_inst!`, L56-L78: `$order`, `$_msvc_fence`. -/
def atomicRmwInst (msvc : Bool) (order : MemOrd) : BitVec 4 × Bool :=
  match order with
  | .relaxed => (0x2#4, false)
  | .acquire => (0xa#4, false)
  | .release => (0x6#4, false)
  | .acqRel => (0xe#4, false)
  | .seqCst => if msvc then (0xe#4, true) else (0xe#4, false)

/-- Build configuration. -/
structure Cfg where
  /-- `portable_atomic_pre_llvm_20` -/
  preLlvm20 : Bool
  /-- `target_env = "msvc"` -/
  msvc : Bool

/-- The operations of this file: `fetch_add` L83-L126, `fetch_max` L133-L175, `fetch_min` L177-L219. -/
inductive Mac where
  | add | max | min
deriving DecidableEq

/-- The mnemonic of a macro: L97, L146, L190. -/
def Mac.mnemonic : Mac → FK
  | .add => .add
  | .max => .maxnm
  | .min => .minnm

/-- The last digits of a macro's number: L114, L163, L207. -/
def Mac.digits : Mac → BitVec 20
  | .add => 0x00041#20
  | .max => 0x06041#20
  | .min => 0x07041#20

/-- `fetch_sub(val)` is `fetch_add(-val)` (L128-L131); negation flips the sign bit. -/
def macOf {w : Nat} (b : FBin) (v : BitVec w) : Mac × BitVec w :=
  match b with
  | .add => (.add, v)
  | .sub => (.add, v ^^^ negMask w)
  | .max => (.max, v)
  | .min => (.min, v)

/-- Registers the compiler chose for `dst`, `val`, `out` of a block with mnemonics. `out` is `lateout`: it
may be the register of `val`. -/
structure Alloc where
  dst : BitVec 5
  val : BitVec 5
  out : BitVec 5

/-- Registers of a block: those chosen, or the fixed `x2`, `v0`, `v1` (L115-L117). -/
def Alloc.used (g : Cfg) (al : Alloc) : Alloc :=
  if g.preLlvm20 then { dst := 2, val := 0, out := 1 } else al

/-- `concat!(".inst 0x", $inst_modifier, "c", $order, "00041")` and so on: L114, L163, L207. -/
def instWord (t : FTy) (m : Mac) (d : BitVec 4) : BitVec 32 :=
  t.instModifier ++ 0xc#4 ++ d ++ m.digits

/-- The block: L92-L123, L141-L172, L185-L216.  `$_msvc_fence` is not used. -/
def blockCode {w : Nat} (g : Cfg) (t : FTy) (m : Mac) (o : MemOrd) (al : Alloc) : List (Ins w) :=
  if g.preLlvm20 then [.word (instWord t m (atomicRmwInst g.msvc o).1)]
  else [.ldf m.mnemonic t.modifier (atomicRmw g.msvc o).1 (atomicRmw g.msvc o).2.1 al.val al.out al.dst]

/-! ## Calls -/

/-- The float unit computes what Rust's `+`, `max` and `min` may (for `max` and `min` of a number and a NaN:
the number). Nothing is said of the other instructions. -/
structure Fpu.Ok {w : Nat} (A : Float.Arith w) (F : Fpu w) : Prop where
  add : ∀ x v, A.res .add x v (F.out .add x v)
  max : ∀ x v, A.res .max x v (F.out .maxnm x v)
  min : ∀ x v, A.res .min x v (F.out .minnm x v)

/-- Build, type, processor, and what float arithmetic may do. -/
structure Env where
  cfg : Cfg
  ty : FTy
  cpu : Cpu
  arith : Float.Arith ty.bits

/-- A call, of an operation of this file or an integer operation on the same object; with the compiler's
choice of registers, the state of the processor, the bits of `val`'s register above the value, and what
the float unit computes. -/
structure Call (E : Env) where
  what : (FBin × BitVec E.ty.bits × MemOrd) ⊕ Op (BitVec E.ty.bits)
  addr : BitVec 64
  al : Alloc
  /-- an allocated register is not the stack pointer -/
  base : al.dst ≠ 31
  st : St E.ty.bits
  junk : BitVec (128 - E.ty.bits)
  fpu : Fpu E.ty.bits
  fpuOk : fpu.Ok E.arith

/-- The instructions. -/
def Call.code {E : Env} (c : Call E) : List (Ins E.ty.bits) :=
  match c.what with
  | .inl (b, v, o) => blockCode E.cfg E.ty (macOf b v).1 o c.al
  | .inr op => [.core op]

/-- The state at entry: `dst` and `val` in their registers. -/
def Call.entry {E : Env} (c : Call E) : St E.ty.bits :=
  match c.what with
  | .inl (b, v, _) => (c.st.setX (c.al.used E.cfg).dst c.addr).setV (c.al.used E.cfg).val
      ((c.junk ++ (macOf b v).2).setWidth 128)
  | .inr _ => c.st

/-- The result. -/
def Call.result {E : Env} (c : Call E) (s : St E.ty.bits) : Res (BitVec E.ty.bits) :=
  match c.what with
  | .inl _ => .val ((s.v (c.al.used E.cfg).out).setWidth E.ty.bits)
  | .inr _ => s.res

/-- The calls as blocks of instructions. -/
def blocks (E : Env) : Blocks (Call E) (Ins E.ty.bits) (St E.ty.bits) (BitVec E.ty.bits) (BitVec E.ty.bits)
    (Res (BitVec E.ty.bits) × St E.ty.bits) where
  prog c := c.code
  entry c := c.entry
  sem c i s := i.sem E.cpu c.fpu c.addr s
  out c s := (c.result s, s)
  order _ _ := false

/-- The events of a call (its block has no branches). -/
def Call.events {E : Env} (c : Call E) : List Arm.Ev := c.code.flatMap Ins.events

end Verif.Lsfe
