import Verif.Int.Sim
/-!
# Float atomics

Models `src/imp/float/int.rs` L26-209 (used by `AtomicF16`, `AtomicF32`, `AtomicF64`, `AtomicF128`,
`src/lib.rs` L4200-4720) over an integer atomic of the same width on any implementation `k` of
`Verif.Int`, and `src/imp/float/aarch64.rs` L80-262 (`lsfe`: `ldfadd`, `ldfmaxnm`, `ldfminnm`).

A float is represented by its bit pattern (`BitVec w`; sign bit is bit `w-1`), so `to_bits` and
`from_bits` are the identity.  The arithmetic itself is a parameter (`Arith`): a relation, because
the bits of a NaN result are not determined; each call carries an oracle for the choices made in
its successive evaluations.
-/
namespace Verif.Float
open Verif.Lf Verif.Int

variable {w : Nat}

/-- Float operations that are computed by the float unit. -/
inductive FBin where
  | add | sub | max | min
deriving DecidableEq

/-- `!0 / 2 + 1` (`int.rs` L97). -/
def negMask (w : Nat) : BitVec w := (~~~0#w) / 2#w + 1#w

/-- `!0 / 2` (`int.rs` L104). -/
def absMask (w : Nat) : BitVec w := (~~~0#w) / 2#w

/-- Float arithmetic on bit patterns: `res b x v y` says `y` is a possible result of `x b v`.
`sub_of_add` is IEEE 754's `x - v = x + (-v)`, relied on by `aarch64.rs` L129-131. -/
structure Arith (w : Nat) where
  res : FBin → BitVec w → BitVec w → BitVec w → Prop
  sub_of_add : ∀ x v y, res .add x (v ^^^ negMask w) y → res .sub x v y

/-- The choices the float unit makes in one call: the result of the next evaluation given the
arguments of the previous ones.  `b` and `v` are the instruction and its right operand. -/
structure Oracle (A : Arith w) (b : FBin) (v : BitVec w) where
  out : List (BitVec w) → BitVec w → BitVec w
  ok : ∀ hist x, A.res b x v (out hist x)

/-- Which implementation: loops over the integer atomic (`int.rs`), or FEAT_LSFE instructions. -/
inductive FBackend where
  | int (k : Int.Backend)
  | lsfe (k : Int.Backend)

/-- The integer atomic underneath. -/
def FBackend.base : FBackend → Int.Backend
  | .int k | .lsfe k => k

/-- The float operation and right operand evaluated by `fetch_<b>(v)`: on LSFE `fetch_sub(v)` is
`fetch_add(-v)` (`aarch64.rs` L128-131). -/
def evald (f : FBackend) (b : FBin) (v : BitVec w) : FBin × BitVec w :=
  match f, b with
  | .lsfe _, .sub => (.add, v ^^^ negMask w)
  | _, b => (b, v)

/-- The public operations on a float atomic (and, through `as_bits`, on its integer view). -/
inductive FOp (A : Arith w) (f : FBackend) where
  | load (o : MemOrd)
  | store (v : BitVec w) (o : MemOrd)
  | swap (v : BitVec w) (o : MemOrd)
  | compareExchange (cur new : BitVec w) (s g : MemOrd)
  | compareExchangeWeak (cur new : BitVec w) (s g : MemOrd)
  | fetchUpdate (set fetch : MemOrd) (c : Closure (BitVec w))
  | fetchNeg (o : MemOrd)
  | fetchAbs (o : MemOrd)
  | arith (b : FBin) (v : BitVec w) (o : MemOrd) (ch : Oracle A (evald f b v).1 (evald f b v).2)
  | bits (op : IOp w)

/-- `Ok(x) => return x` of `fetch_update_` (`int.rs` L187). -/
def okVal : Res (BitVec w) → IRes w
  | .ok x => .res (.val x)
  | r => .res r

/-- The code of each operation; `none` if the underlying integer atomic lacks it. -/
def prog (signed : Bool) {A : Arith w} {f : FBackend} : FOp A f → Option (P w)
  -- `int.rs` L61-63
  | .load o => Int.prog signed f.base (.load o)
  -- L71-73
  | .store v o => Int.prog signed f.base (.store v o)
  -- L91-93
  | .swap v o => Int.prog signed f.base (.swap v o)
  -- L116-132
  | .compareExchange c n s g => Int.prog signed f.base (.compareExchange c n s g)
  -- L139-155
  | .compareExchangeWeak c n s g => Int.prog signed f.base (.compareExchangeWeak c n s g)
  -- `src/lib.rs` L4584-4601: `load`, then `compare_exchange_weak` in a loop
  | .fetchUpdate s g c => if f.base.hasCas then some (.update s g c .res) else none
  -- L96-99
  | .fetchNeg o => Int.prog signed f.base (.fetchBin .xor (negMask w) o)
  -- L103-106
  | .fetchAbs o => Int.prog signed f.base (.fetchBin .and (absMask w) o)
  -- `int.rs` L168-204: `fetch_update_(order, |x| x + val)`: first load and failure ordering Relaxed;
  -- `aarch64.rs` L84-225: one instruction
  | .arith b v o ch =>
    match f with
    | .int _ => if f.base.hasCas then
        some (.update o .relaxed (fun hist x => some (ch.out hist x)) okVal) else none
    | .lsfe _ => some (rmw (ch.out []) o)
  -- `as_bits()` L76-84
  | .bits op => Int.prog signed f.base op

end Verif.Float
