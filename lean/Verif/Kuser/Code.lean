import Verif.Asm.Points
import Verif.Spec.Wide
import Verif.Ordering
import Verif.Utils.Pair
/-!
# The 64-bit operations of `src/imp/atomic64/arm_linux.rs` (Arm Linux before v6)

Every operation is a Rust loop: the two words are read by two `ldr` (L89-L104), the new value is computed,
and the kernel's user helper `__kuser_cmpxchg64` is called (L77-L87).  Rust statements are instructions of
their own.  The helper is one access, as the kernel's documentation says (trusted); whether it may also
fail when the value is the expected one is left open (`Env.spurious`).  A call of the helper on a
kernel that does not have it is a fault.
-/
set_option autoImplicit false
namespace Verif.Kuser
open Verif.Lf Verif.Asm Verif.Wide
open Verif.Pair (Endian)

/-- The operations on a 64-bit integer. -/
abbrev Op64 := WOp 64

/-- Where the program runs. -/
structure Env where
  endian : Endian
  /-- the number the kernel has put at `KUSER_HELPER_VERSION` (L59, L62-L67), an `i32` -/
  version : BitVec 32
  /-- `cfg!(portable_atomic_test_detect_false)` (L72) -/
  detectFalse : Bool
  /-- does the kernel have `__kuser_cmpxchg64`? -/
  helper : Bool
  /-- may it fail for no reason? -/
  spurious : Bool

/-- `has_kuser_cmpxchg64`, L68-L76. -/
def Env.hasKuser (E : Env) : Bool := if E.detectFalse then false else decide (E.version.toInt ≥ 5)

/-- Operands of the `asm!` block and local variables. -/
structure St where
  src : BitVec 32
  outLo : BitVec 32
  outHi : BitVec 32
  prev : BitVec 64
  next : BitVec 64
  /-- what the helper returned, `== 0` -/
  changed : Bool

/-- The halves of a 64-bit integer. -/
def lo (x : BitVec 64) : BitVec 32 := x.extractLsb' 0 32
def hi (x : BitVec 64) : BitVec 32 := x.extractLsb' 32 32

/-- The word at the object's address, and the next one. -/
def word0 (e : Endian) (x : BitVec 64) : BitVec 32 :=
  match e with | .little => lo x | .big => hi x
def word1 (e : Endian) (x : BitVec 64) : BitVec 32 :=
  match e with | .little => hi x | .big => lo x

/-- `U64 { pair: Pair { lo, hi } }.whole`: on Arm `lo` is first in memory with either byte order
(`src/utils.rs` L518-L540). -/
def join (e : Endian) (lo hi : BitVec 32) : BitVec 64 :=
  match e with | .little => hi ++ lo | .big => lo ++ hi

/-- Instructions and statements. -/
inductive Ins where
  /-- `ldr {out_lo}, [{src}, #off]` -/
  | ldrLo (off : BitVec 32)
  /-- `ldr {out_hi}, [{src}, #off]` -/
  | ldrHi (off : BitVec 32)
  /-- `let prev = U64 { .. }.whole` -/
  | setPrev
  /-- `let next = ..` -/
  | setNext (f : BitVec 64 → BitVec 64)
  /-- `__kuser_cmpxchg64(&prev, &next, dst)` -/
  | kuser
  /-- `if` that was false, go to `t` -/
  | ifFailed (t : Nat)
  /-- the lock is taken instead: not modelled here -/
  | fallback

/-- The state after an `ldr`. -/
def St.gotLo (s : St) (f : BitVec 64 → BitVec 32) : Res (BitVec 64) → St
  | .val x => { s with outLo := f x }
  | _ => s
def St.gotHi (s : St) (f : BitVec 64 → BitVec 32) : Res (BitVec 64) → St
  | .val x => { s with outHi := f x }
  | _ => s

/-- The state after the helper: zero is returned iff the value was changed. -/
def St.called (s : St) : Res (BitVec 64) → St
  | .ok _ => { s with changed := true }
  | _ => { s with changed := false }

/-- The function of the word read by an `ldr` from `a`, for the object at `addr`. -/
def wordAt (e : Endian) (addr a : BitVec 32) : Option (BitVec 64 → BitVec 32) :=
  if a = addr then some (word0 e) else if a = addr + 4 then some (word1 e) else none

/-- The meaning of an instruction. -/
def Ins.sem (E : Env) (addr : BitVec 32) (i : Ins) (s : St) : Eff St (BitVec 64) (BitVec 32) :=
  match i with
  | .ldrLo off => match wordAt E.endian addr (s.src + off) with
    | some f => .acc (.op (.load .relaxed)) (s.gotLo f)
    | none => .fault
  | .ldrHi off => match wordAt E.endian addr (s.src + off) with
    | some f => .acc (.op (.load .relaxed)) (s.gotHi f)
    | none => .fault
  | .setPrev => .go { s with prev := join E.endian s.outLo s.outHi }
  | .setNext f => .go { s with next := f s.prev }
  | .kuser =>
    if E.helper = true ∧ s.src = addr then
      if E.spurious then .acc (.casWeak s.prev s.next .relaxed .relaxed) s.called
      else .acc (.op (.cas s.prev s.next .relaxed .relaxed)) s.called
    else .fault
  | .ifFailed t => .br (!s.changed) t
  | .fallback => .fault

/-- The new value: the closures given to `select_atomic!` (L159-L163, L172-L177, L216-L293) and, for compare-exchange, L194.
`atomic_store` is `atomic_swap` (L165-L171). -/
def next : Op64 → BitVec 64 → BitVec 64
  | .load, x => x
  | .store v, _ | .swap v, _ => v
  | .cas old new, x | .casWeak old new, x => if x == old then new else x
  | .rmw3 .add v, x => x + v
  | .rmw3 .sub v, x => x - v
  | .rmw3 .and v, x => x &&& v
  | .rmw3 .nand v, x => ~~~(x &&& v)
  | .rmw3 .or v, x => x ||| v
  | .rmw3 .xor v, x => x ^^^ v
  | .rmw3 .max v, x => if v.slt x then x else v
  | .rmw3 .umax v, x => if v.ult x then x else v
  | .rmw3 .min v, x => if v.slt x then v else x
  | .rmw3 .umin v, x => if v.ult x then v else x
  | .rmw2 .not, x => ~~~x
  | .rmw2 .neg, x => -x

/-- What an operation runs. -/
inductive Block where
  /-- `kuser_cmpxchg64_fn`, L116-L143 and L186-L200 -/
  | loop
  /-- the sequence lock, with an operation and orderings -/
  | fallback (op : Op64) (o f : MemOrd)

/-- The loop. -/
def Block.code (op : Op64) : Block → List Ins
  | .loop => [.ldrLo 0, .ldrHi 4, .setPrev, .setNext (next op), .kuser, .ifFailed 0]
  | .fallback _ _ _ => [.fallback]

/-- `ifunc!` in L146-L153 and L204-L211: the orderings the caller asked for are not looked at. -/
def select (E : Env) (op : Op64) (_o _f : MemOrd) : Block :=
  if E.hasKuser then .loop
  else match op with
    | .store v => .fallback (.swap v) .seqCst .seqCst
    | op => .fallback op .seqCst .seqCst

/-- A call: operation, orderings (`fail` for compare-exchange), address, and whatever is in registers and
variables. -/
structure Call where
  op : Op64
  ord : MemOrd
  fail : MemOrd
  /-- panics for other orderings happen before (C15; `macros.rs`, `src/utils.rs` L394-L431) -/
  valid : op.OrdOk ord fail
  addr : BitVec 32
  st : St

/-- The block a call runs. -/
def Call.block (E : Env) (c : Call) : Block := select E c.op c.ord c.fail

/-- The result: `prev`; for compare-exchange `(prev, prev == old)` (L196) made into a `Result` (L213). -/
def Call.result (c : Call) (s : St) : Res (BitVec 64) :=
  match c.op with
  | .store _ => .unit
  | .cas old _ | .casWeak old _ => if s.prev == old then .ok s.prev else .err s.prev
  | _ => .val s.prev

/-- The back end. (No instruction reads the object in two parts, so the reading order is immaterial.) -/
def blocks (E : Env) : Blocks Call Ins St (BitVec 64) (BitVec 32) (Res (BitVec 64)) where
  prog c := (c.block E).code c.op
  entry c := { c.st with src := c.addr }
  sem c i s := i.sem E c.addr s
  out c s := c.result s
  order := fun _ _ => false

end Verif.Kuser
