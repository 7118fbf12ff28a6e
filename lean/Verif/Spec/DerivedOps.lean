import Verif.Spec.Derived
import Verif.Spec.Bool
import Verif.Props.Int
import Verif.Props.Ptr
import Verif.Props.Float
import Verif.Props.Bool
/-!
# Specification: the operations of the crate's types as single accesses in weak memory

Nothing in this file models the crate.  What each operation of an integer, pointer, float or boolean
atomic means on a plain value is in `Spec/Int.lean`, `Spec/Ptr.lean`, `Spec/Float.lean`, `Spec/Bool.lean`,
and the orderings asked for are the arguments of the call.  Here: which kind of access each is.  A call
rejected for its ordering makes none; `load` is a read, `store` a write; a compare-exchange or
`fetch_update` that succeeds is a read-modify-write, one that fails only a read; all others are
read-modify-writes.
-/
set_option autoImplicit false

namespace Verif.Int
variable {w : Nat}
open Verif.WM.Derived (Kind)

def IOp.kind : IOp w → IRes w → Kind
  | _, .res .panic => .nothing
  | .load _, _ => .read
  | .store _ _, _ => .store
  | .compareExchange .., .res (.err _) | .compareExchangeWeak .., .res (.err _) | .fetchUpdate .., .res (.err _) => .read
  | _, _ => .write

/-- An integer atomic. -/
def wspec (w : Nat) (signed : Bool) : WM.Derived.Spec (BitVec w) (IOp w) (IRes w) where
  sem := Sem signed
  kind := IOp.kind
  succ := IOp.succ
  fail := IOp.fail

end Verif.Int

namespace Verif.Ptr
variable {w : Nat}
open Verif.Int
open Verif.WM.Derived (Kind)

def POp.kind : POp w → IRes w → Kind
  | _, .res .panic => .nothing
  | .load _, _ => .read
  | .store _ _, _ => .store
  | .compareExchange .., .res (.err _) | .compareExchangeWeak .., .res (.err _) | .fetchUpdate .., .res (.err _) => .read
  | _, _ => .write

/-- A pointer atomic, for a pointee of size `size`. -/
def wspec (w size : Nat) : WM.Derived.Spec (BitVec w) (POp w) (IRes w) where
  sem := Sem size
  kind := POp.kind
  succ := POp.succ
  fail := POp.fail

end Verif.Ptr

namespace Verif.Float
variable {w : Nat}
open Verif.Int
open Verif.WM.Derived (Kind)

def FOp.kind {A : Arith w} {f : FBackend} : FOp A f → IRes w → Kind
  | .bits op, r => op.kind r
  | _, .res .panic => .nothing
  | .load _, _ => .read
  | .store _ _, _ => .store
  | .compareExchange .., .res (.err _) | .compareExchangeWeak .., .res (.err _) | .fetchUpdate .., .res (.err _) => .read
  | _, _ => .write

/-- The ordering asked for when the operation writes. -/
def FOp.succ {A : Arith w} {f : FBackend} : FOp A f → MemOrd
  | .load o | .store _ o | .swap _ o | .fetchNeg o | .fetchAbs o | .arith _ _ o _ => o
  | .compareExchange _ _ s _ | .compareExchangeWeak _ _ s _ | .fetchUpdate s _ _ => s
  | .bits op => op.succ

/-- The ordering asked for when it only reads. -/
def FOp.fail {A : Arith w} {f : FBackend} : FOp A f → MemOrd
  | .load o | .store _ o | .swap _ o | .fetchNeg o | .fetchAbs o | .arith _ _ o _ => o
  | .compareExchange _ _ _ g | .compareExchangeWeak _ _ _ g | .fetchUpdate _ g _ => g
  | .bits op => op.fail

/-- A float atomic (and its integer view). -/
def wspec (signed : Bool) (A : Arith w) (f : FBackend) : WM.Derived.Spec (BitVec w) (FOp A f) (IRes w) where
  sem := Sem signed
  kind := FOp.kind
  succ := FOp.succ
  fail := FOp.fail

end Verif.Float

namespace Verif.Bool
open Verif.WM.Derived (Kind)

def BOp.kind : BOp → Res Bool → Kind
  | _, .panic => .nothing
  | .load _, _ => .read
  | .store _ _, _ => .store
  | .compareExchange .., .err _ | .compareExchangeWeak .., .err _ | .fetchUpdate .., .err _ => .read
  | _, _ => .write

/-- `AtomicBool`. -/
def wspec : WM.Derived.Spec Bool BOp (Res Bool) where
  sem := Sem
  kind := BOp.kind
  succ := BOp.succ
  fail := BOp.fail

end Verif.Bool

namespace Verif.WM.Derived
variable {W O R : Type}

/-- Only the operations in `P`. -/
def Spec.sub (S : Spec W O R) (P : O → Prop) : Spec W { op : O // P op } R where
  sem op := S.sem op.1
  kind op := S.kind op.1
  succ op := S.succ op.1
  fail op := S.fail op.1

end Verif.WM.Derived
