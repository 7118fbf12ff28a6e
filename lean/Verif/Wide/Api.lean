import Verif.Spec.Wide
import Verif.Ordering
import Verif.Compose.Sim
/-!
# The public operations of 64- and 128-bit atomics made of assembly functions

Models the methods that `atomic128!` (`src/imp/atomic128/macros.rs` L5-254) and `atomic64!`
(`src/imp/atomic64/macros.rs` L5-229, the same text with other types and comments) make of a back end's functions
`atomic_load`, `atomic_store`, `atomic_swap`, `atomic_compare_exchange[_weak]`, `atomic_add`, ..., with what
`src/lib.rs` and `src/utils.rs` add.  Lines are those of `atomic128/macros.rs`.

The casts `as u128`, `as i128` keep the bits.
-/
set_option autoImplicit false
namespace Verif.Wide
open Verif.Int Verif.Lf Verif.Compose

variable {n : Nat}

/-- A call of a back end's function: which, its arguments and orderings (`fail` only for a compare-exchange). -/
structure Fn (n : Nat) where
  op : WOp n
  ord : MemOrd
  fail : MemOrd

/-- A method: it panics, or calls a function of the back end. -/
inductive Method (n : Nat) where
  | panic
  | fn (c : Fn n)

/-- `load`: L33-42. -/
def mLoad (o : MemOrd) : Method n :=
  match o.assertLoad with
  | .ok => .fn ⟨.load, o, .relaxed⟩
  | .panic => .panic

/-- `store`: L48-56. -/
def mStore (v : BitVec n) (o : MemOrd) : Method n :=
  match o.assertStore with
  | .ok => .fn ⟨.store v, o, .relaxed⟩
  | .panic => .panic

/-- `swap`: L58-67. -/
def mSwap (v : BitVec n) (o : MemOrd) : Method n := .fn ⟨.swap v, o, .relaxed⟩

/-- `compare_exchange`: L74-97. -/
def mCas (cur new : BitVec n) (s f : MemOrd) : Method n :=
  match s.assertCas f with
  | .ok => .fn ⟨.cas cur new, s, f⟩
  | .panic => .panic

/-- `compare_exchange_weak`: L104-127. -/
def mCasWeak (cur new : BitVec n) (s f : MemOrd) : Method n :=
  match s.assertCas f with
  | .ok => .fn ⟨.casWeak cur new, s, f⟩
  | .panic => .panic

/-- `fetch_add`, `fetch_sub`, `fetch_and`, `fetch_or`, `fetch_xor`: L129-161, L175-195. -/
def mBin (b : Bin) (v : BitVec n) (o : MemOrd) : Method n :=
  match b with
  | .add => .fn ⟨.rmw3 .add v, o, .relaxed⟩
  | .sub => .fn ⟨.rmw3 .sub v, o, .relaxed⟩
  | .and => .fn ⟨.rmw3 .and v, o, .relaxed⟩
  | .or => .fn ⟨.rmw3 .or v, o, .relaxed⟩
  | .xor => .fn ⟨.rmw3 .xor v, o, .relaxed⟩

/-- `$atomic_max`, `$atomic_min`: the arguments of `atomic128!(AtomicI128, i128, atomic_max, atomic_min)` and
`atomic128!(AtomicU128, u128, atomic_umax, atomic_umin)` at the end of each back end. -/
def maxFn (signed : Bool) : Op3 := if signed then .max else .umax
def minFn (signed : Bool) : Op3 := if signed then .min else .umin

/-- `fetch_nand`, `fetch_max`, `fetch_min`: L163-173, L196-216. -/
def mBinF (signed : Bool) (b : BinF) (v : BitVec n) (o : MemOrd) : Method n :=
  match b with
  | .nand => .fn ⟨.rmw3 .nand v, o, .relaxed⟩
  | .max => .fn ⟨.rmw3 (maxFn signed) v, o, .relaxed⟩
  | .min => .fn ⟨.rmw3 (minFn signed) v, o, .relaxed⟩

/-- `fetch_not`, `fetch_neg`: L218-243. -/
def mUn (u : Un) (o : MemOrd) : Method n :=
  match u with
  | .not => .fn ⟨.rmw2 .not, o, .relaxed⟩
  | .neg => .fn ⟨.rmw2 .neg, o, .relaxed⟩

/-- A public operation: a method and what becomes of its answer, or `fetch_update`. -/
inductive Body (n : Nat) where
  | method (m : Method n) (dec : Res (BitVec n) → IRes n)
  | fetchUpdate (s g : MemOrd) (f : Closure (BitVec n))

/-- The answer dropped: `add` etc. (`src/utils.rs` L199-247), `not`, `neg` (L229-231, L245-247). -/
def dropped : Res (BitVec n) → IRes n
  | .val _ => .res .unit
  | r => .res r

/-- `.. & mask != 0` (`src/utils.rs` L249-299). -/
def masked (mask : BitVec n) : Res (BitVec n) → IRes n
  | .val x => .flag (x &&& mask != 0)
  | r => .res r

/-- The code of each public operation (`src/lib.rs` forwards to the method of the same name; `fetch_update` is
`src/lib.rs` L3659-3676; the bit operations are `src/utils.rs` L249-299). -/
def body (signed : Bool) : IOp n → Body n
  | .load o => .method (mLoad o) .res
  | .store v o => .method (mStore v o) .res
  | .swap v o => .method (mSwap v o) .res
  | .compareExchange c x s f => .method (mCas c x s f) .res
  | .compareExchangeWeak c x s f => .method (mCasWeak c x s f) .res
  | .fetchBin b v o => .method (mBin b v o) .res
  | .bin b v o => .method (mBin b v o) dropped
  | .fetchBinF b v o => .method (mBinF signed b v o) .res
  | .fetchUn u o => .method (mUn u o) .res
  | .un u o => .method (mUn u o) dropped
  | .bit .set i o => .method (mBin .or (wrappingShl1 i) o) (masked (wrappingShl1 i))
  | .bit .clear i o => .method (mBin .and (~~~(wrappingShl1 i)) o) (masked (wrappingShl1 i))
  | .bit .toggle i o => .method (mBin .xor (wrappingShl1 i) o) (masked (wrappingShl1 i))
  | .fetchUpdate s g f => .fetchUpdate s g f

/-- Program points. -/
inductive Pc (n : Nat) where
  | start (b : Body n)
  | fin (r : IRes n)
  /-- in the loop of `fetch_update`; `hist`: the arguments its closure has had -/
  | upd (s g : MemOrd) (f : Closure (BitVec n)) (hist : List (BitVec n)) (prev : BitVec n)

/-- After the first read of `fetch_update`. -/
def afterLoad (s g : MemOrd) (f : Closure (BitVec n)) : Res (BitVec n) → Pc n
  | .val v => .upd s g f [] v
  | r => .fin (.res r)

/-- After its compare-exchange. -/
def afterUpd (s g : MemOrd) (f : Closure (BitVec n)) (hist : List (BitVec n)) : Res (BitVec n) → Pc n
  | .err x => .upd s g f hist x
  | r => .fin (.res r)

/-- Call a method. -/
def callM (m : Method n) (k : Res (BitVec n) → Pc n) : Compose.Next (Fn n) (Res (BitVec n)) (IRes n) (Pc n) :=
  match m with
  | .fn c => .call c k
  | .panic => .tau (.fin (.res .panic))

/-- The code. -/
def apiNext : Pc n → Compose.Next (Fn n) (Res (BitVec n)) (IRes n) (Pc n)
  | .start (.method m dec) => callM m (fun r => .fin (dec r))
  | .start (.fetchUpdate s g f) => callM (mLoad g) (afterLoad s g f)
  | .fin r => .ret r
  | .upd s g f hist prev =>
    match f hist prev with
    | none => .ret (.res (.err prev))
    | some nx => callM (mCasWeak prev nx s g) (afterUpd s g f (hist ++ [prev]))

/-- All operations of the signed or unsigned type over a back end. -/
def api (signed : Bool) : Client (Fn n) (Res (BitVec n)) (IOp n) (IRes n) (Pc n) where
  start op := .start (body signed op)
  next := apiNext

end Verif.Wide
