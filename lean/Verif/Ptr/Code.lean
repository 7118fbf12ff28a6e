import Verif.Int.Sim
/-!
# `AtomicPtr`

Models `src/lib.rs` L1782-2629 (`AtomicPtr`) on these implementations:

* `viaUsize`: `src/imp/core_atomic.rs` L118-195 without Miri: `self.as_atomic_usize().fetch_*`;
  bit operations by `src/utils.rs` L250-277 (`asm = false`) or by `bts`/`btr`/`btc`
  (`src/imp/x86.rs` L174-253, L276, L282, `asm = true`).
* `strictLoop`: the Miri / strict-provenance variant of the same functions: `fetch_update_` with
  `with_addr` (`src/imp/core_atomic.rs` L118-213).
* `riscvAmo`: `src/imp/riscv.rs` L271-336 (`fetch_byte_sub` is `fetch_byte_add` of the negation);
  no compare-exchange.
* `interrupt`: `src/imp/interrupt/mod.rs` L245-330, each function one critical section (one
  indivisible step by C31).

Simplification: a pointer is its address (`usize`, `w` bits); provenance is not modelled, so
`with_addr` / `with_exposed_provenance_mut` / `addr` (`src/utils.rs` L610-690) are the identity.
-/
namespace Verif.Ptr
open Verif.Lf Verif.Int

/-- The public operations of `AtomicPtr<T>`; addresses are `w` bits. -/
inductive POp (w : Nat) where
  | load (o : MemOrd)
  | store (v : BitVec w) (o : MemOrd)
  | swap (v : BitVec w) (o : MemOrd)
  | compareExchange (cur new : BitVec w) (s f : MemOrd)
  | compareExchangeWeak (cur new : BitVec w) (s f : MemOrd)
  | fetchUpdate (set fetch : MemOrd) (f : Closure (BitVec w))
  | fetchPtrAdd (n : BitVec w) (o : MemOrd)
  | fetchPtrSub (n : BitVec w) (o : MemOrd)
  | fetchByteAdd (n : BitVec w) (o : MemOrd)
  | fetchByteSub (n : BitVec w) (o : MemOrd)
  | fetchOr (v : BitVec w) (o : MemOrd)
  | fetchAnd (v : BitVec w) (o : MemOrd)
  | fetchXor (v : BitVec w) (o : MemOrd)
  | bit (b : BitOp) (n : BitVec 32) (o : MemOrd)

inductive Backend where
  | viaUsize (asm : Bool)
  | strictLoop
  | riscvAmo
  | interrupt
deriving DecidableEq

variable {w : Nat}

/-- `fetch_byte_add`, `fetch_byte_sub`, `fetch_and`, `fetch_or`, `fetch_xor` of each
implementation.  `viaUsize`: `core_atomic.rs` L118-195 (`not(miri)` arms), i.e. the `AtomicUsize`
operation; `strictLoop`: the `miri` arms; `riscvAmo`: `riscv.rs` L287-324; `interrupt`:
`interrupt/mod.rs` L282-330. -/
def arith (k : Backend) (b : Bin) (v : BitVec w) (o : MemOrd) : P w :=
  match k, b with
  | .viaUsize _, b => rmw (b.fn v) o
  | .strictLoop, .add => fetchUpdate_ o (fun x => x + v)
  | .strictLoop, .sub => fetchUpdate_ o (fun x => x - v)
  | .strictLoop, .or => fetchUpdate_ o (fun x => x ||| v)
  | .strictLoop, .and => fetchUpdate_ o (fun x => x &&& v)
  | .strictLoop, .xor => fetchUpdate_ o (fun x => x ^^^ v)
  | .riscvAmo, .sub => rmw (Bin.fn .add (-v)) o
  | .riscvAmo, b => rmw (b.fn v) o
  | .interrupt, .add => rmw (fun prev => prev + v) o
  | .interrupt, .sub => rmw (fun prev => prev - v) o
  | .interrupt, .and => rmw (fun prev => prev &&& v) o
  | .interrupt, .or => rmw (fun prev => prev ||| v) o
  | .interrupt, .xor => rmw (fun prev => prev ^^^ v) o

/-- `src/utils.rs` L250-277. -/
def bitDefault (k : Backend) (b : BitOp) (n : BitVec 32) (o : MemOrd) : P w :=
  let mask : BitVec w := wrappingShl1 n
  match b with
  | .set => mapRes (testMask mask) (arith k .or mask o)
  | .clear => mapRes (testMask mask) (arith k .and (~~~mask) o)
  | .toggle => mapRes (testMask mask) (arith k .xor mask o)

/-- `bit_set`, `bit_clear`, `bit_toggle`. -/
def bit (k : Backend) (b : BitOp) (n : BitVec 32) (o : MemOrd) : P w :=
  match k with
  | .viaUsize true =>
    .one (.op (.rmw (btFn b (n.toNat &&& (w - 1))) .seqCst)) (carry (n.toNat &&& (w - 1)))
  | k => bitDefault k b n o

def Backend.hasCas : Backend → Bool
  | .riscvAmo => false
  | _ => true

/-- The code of each operation for a pointee of size `size` (`size_of::<T>()`); `none` if the
implementation has no such operation.  `fetch_ptr_add` L2275-2277, `fetch_ptr_sub` L2311-2313,
`fetch_update` L2222-2239; the rest forwards. -/
def prog (size : Nat) (k : Backend) : POp w → Option (P w)
  | .load o => some (one (.op (.load o)))
  | .store v o => some (one (.op (.store v o)))
  | .swap v o => some (one (.op (.swap v o)))
  | .compareExchange c n s f => if k.hasCas then some (one (.op (.cas c n s f))) else none
  | .compareExchangeWeak c n s f => if k.hasCas then some (one (.casWeak c n s f)) else none
  | .fetchUpdate s g f => if k.hasCas then some (.update s g f .res) else none
  | .fetchPtrAdd n o => some (arith k .add (n * BitVec.ofNat w size) o)
  | .fetchPtrSub n o => some (arith k .sub (n * BitVec.ofNat w size) o)
  | .fetchByteAdd n o => some (arith k .add n o)
  | .fetchByteSub n o => some (arith k .sub n o)
  | .fetchOr v o => some (arith k .or v o)
  | .fetchAnd v o => some (arith k .and v o)
  | .fetchXor v o => some (arith k .xor v o)
  | .bit b n o => some (bit k b n o)

end Verif.Ptr
