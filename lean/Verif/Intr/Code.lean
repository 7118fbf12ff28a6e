import Verif.Int.Code
import Verif.Ordering
/-!
# 128-bit atomics without inline assembly

Models `src/imp/atomic128/intrinsics.rs` (the 128-bit atomics under Miri and ThreadSanitizer), the methods made
of them by `atomic128!` (`src/imp/atomic128/macros.rs` L5-254) and the forms `src/lib.rs`, `src/utils.rs` add.

What is below this code: `core::intrinsics::atomic_*` and `core::arch::x86_64::cmpxchg16b` are single accesses
with the ordering in their name or arguments; a `cxchgweak` may fail for no reason.  On x86_64 without
`cmpxchg16b` at compile time, all accesses go, by run-time detection, either to `cmpxchg16b` or to the lock-based
`fallback::atomic_compare_exchange` (L150-165), which are both a compare-exchange.
-/
set_option autoImplicit false
namespace Verif.Intr
open Verif.Lf Verif.Int

/-- The configurations that differ: x86_64, s390x with LLVM before 18, powerpc64, and the rest (aarch64, s390x). -/
inductive Arch where
  | x86_64 | s390xPre18 | powerpc64 | other
deriving DecidableEq

abbrev V := BitVec 128

/-- The body of an `unsafe fn atomic_*` or of a method: it panics, makes one access, or calls `atomic_update`. -/
inductive Fn where
  | panic
  | acc (a : Acc V) (dec : Res V → Res V)
  | update (f : V → V) (o : MemOrd)

/-- `strongest_failure_ordering` (L52-59). -/
def strongestFailure : MemOrd → MemOrd
  | .release | .relaxed => .relaxed
  | .seqCst => .seqCst
  | .acquire | .acqRel => .acquire

/-- x86_64: `cmpxchg16b` gives the previous value, `ok` is whether it is `old` (L118-140); then
`if ok { Ok(val) } else { Err(val) }` (L183). -/
def ofPrev (old : V) : Res V → Res V
  | .ok v | .err v => if v = old then .ok v else .err v
  | r => r

/-- The intrinsic chosen by `match (success, failure)` of `atomic_compare_exchange` (L166-182) and of
`atomic_compare_exchange_weak` (L198-216): the orderings in its name; `none` is `unreachable!()`. -/
def cxchg : MemOrd → MemOrd → Option (MemOrd × MemOrd)
  | .relaxed, .relaxed => some (.relaxed, .relaxed)
  | .relaxed, .acquire => some (.relaxed, .acquire)
  | .relaxed, .seqCst => some (.relaxed, .seqCst)
  | .acquire, .relaxed => some (.acquire, .relaxed)
  | .acquire, .acquire => some (.acquire, .acquire)
  | .acquire, .seqCst => some (.acquire, .seqCst)
  | .release, .relaxed => some (.release, .relaxed)
  | .release, .acquire => some (.release, .acquire)
  | .release, .seqCst => some (.release, .seqCst)
  | .acqRel, .relaxed => some (.acqRel, .relaxed)
  | .acqRel, .acquire => some (.acqRel, .acquire)
  | .acqRel, .seqCst => some (.acqRel, .seqCst)
  | .seqCst, .relaxed => some (.seqCst, .relaxed)
  | .seqCst, .acquire => some (.seqCst, .acquire)
  | .seqCst, .seqCst => some (.seqCst, .seqCst)
  | _, _ => none

/-- `atomic_compare_exchange` (L106-184). -/
def atomicCas (a : Arch) (old new : V) (s f : MemOrd) : Fn :=
  match a with
  | .x86_64 => .acc (.op (.cas old new s f)) (ofPrev old)
  | _ => match cxchg s f with
    | some (s, f) => .acc (.op (.cas old new s f)) id
    | none => .panic

/-- `atomic_compare_exchange_weak` (L185-220): on x86_64 the strong one. -/
def atomicCasWeak (a : Arch) (old new : V) (s f : MemOrd) : Fn :=
  match a with
  | .x86_64 => atomicCas a old new s f
  | _ => match cxchg s f with
    | some (s, f) => .acc (.casWeak old new s f) id
    | none => .panic

/-- `match .. { Ok(v) | Err(v) => v }` (L69-71). -/
def either : Res V → Res V
  | .ok v | .err v => .val v
  | r => r

/-- `atomic_load` (L63-82): on x86_64 a compare-exchange of 0 with 0. -/
def atomicLoad (a : Arch) (o : MemOrd) : Fn :=
  match a with
  | .x86_64 =>
    match atomicCas a 0 0 o (strongestFailure o) with
    | .acc x d => .acc x (fun r => either (d r))
    | x => x
  | _ => match o with
    | .acquire => .acc (.op (.load .acquire)) id
    | .relaxed => .acc (.op (.load .relaxed)) id
    | .seqCst => .acc (.op (.load .seqCst)) id
    | _ => .panic

/-- The intrinsic chosen by `match order` of the read-modify-writes (L253-449, the same five arms each). -/
def rmwOrd : MemOrd → MemOrd
  | .acquire => .acquire
  | .release => .release
  | .acqRel => .acqRel
  | .relaxed => .relaxed
  | .seqCst => .seqCst

/-- Are all read-modify-writes made of `atomic_update` (L244-245)? -/
def Arch.byUpdate : Arch → Bool
  | .x86_64 | .s390xPre18 => true
  | _ => false

/-- Are minimum and maximum (L244-248)? -/
def Arch.cmpByUpdate : Arch → Bool
  | .x86_64 | .s390xPre18 | .powerpc64 => true
  | _ => false

/-- `atomic_swap`: L253-264, `macros.rs` L263-266. -/
def atomicSwap (a : Arch) (v : V) (o : MemOrd) : Fn :=
  if a.byUpdate then .update (fun _ => v) o else .acc (.op (.swap v (rmwOrd o))) id

/-- `atomic_store` (L86-102): on x86_64 a swap, the value dropped. -/
def atomicStore (a : Arch) (v : V) (o : MemOrd) : Fn :=
  match a with
  | .x86_64 => atomicSwap a v o
  | _ => match o with
    | .release => .acc (.op (.store v .release)) id
    | .relaxed => .acc (.op (.store v .relaxed)) id
    | .seqCst => .acc (.op (.store v .seqCst)) id
    | _ => .panic

/-- `atomic_add`, `_sub`, `_and`, `_or`, `_xor`: L270-366, `macros.rs` L269-302. -/
def atomicBin (a : Arch) (b : Bin) (v : V) (o : MemOrd) : Fn :=
  if a.byUpdate then .update (b.fn v) o else .acc (.op (.rmw (b.fn v) (rmwOrd o))) id

/-- `atomic_nand`: L304-315, `macros.rs` L287-290. -/
def atomicNand (a : Arch) (v : V) (o : MemOrd) : Fn :=
  if a.byUpdate then .update (fun x => ~~~(x &&& v)) o else .acc (.op (.rmw (fun x => ~~~(x &&& v)) (rmwOrd o))) id

/-- `atomic_max`, `atomic_umax` (the type's signedness chooses, L495-496): L376-388, L420-431, `macros.rs` L320-332. -/
def atomicMax (a : Arch) (signed : Bool) (v : V) (o : MemOrd) : Fn :=
  if a.cmpByUpdate then .update (fun x => cmpMax signed x v) o
  else .acc (.op (.rmw (fun x => cmpMax signed x v) (rmwOrd o))) id

/-- `atomic_min`, `atomic_umin`: L398-410, L441-452, `macros.rs` L335-347. -/
def atomicMin (a : Arch) (signed : Bool) (v : V) (o : MemOrd) : Fn :=
  if a.cmpByUpdate then .update (fun x => cmpMin signed x v) o
  else .acc (.op (.rmw (fun x => cmpMin signed x v) (rmwOrd o))) id

/-- `atomic_not`: L458-461 (`atomic_xor(dst, !0, order)`), `macros.rs` L305-308. -/
def atomicNot (a : Arch) (o : MemOrd) : Fn :=
  if a.byUpdate then .update (fun x => ~~~x) o else atomicBin a .xor (~~~0) o

/-- `atomic_neg`: L466-469, `macros.rs` L311-314: both by `atomic_update`. -/
def atomicNeg (_ : Arch) (o : MemOrd) : Fn := .update (fun x => -x) o

/-! ## Methods (`macros.rs` L5-254; `v as u128` and back keep the bits) -/

/-- `load`: `macros.rs` L33-42. -/
def load (a : Arch) (o : MemOrd) : Fn :=
  match o.assertLoad with
  | .ok => atomicLoad a o
  | .panic => .panic

/-- `store`: L48-56. -/
def store (a : Arch) (v : V) (o : MemOrd) : Fn :=
  match o.assertStore with
  | .ok => atomicStore a v o
  | .panic => .panic

/-- `compare_exchange`: L74-97. -/
def compareExchange (a : Arch) (c n : V) (s f : MemOrd) : Fn :=
  match s.assertCas f with
  | .ok => atomicCas a c n s f
  | .panic => .panic

/-- `compare_exchange_weak`: L104-127. -/
def compareExchangeWeak (a : Arch) (c n : V) (s f : MemOrd) : Fn :=
  match s.assertCas f with
  | .ok => atomicCasWeak a c n s f
  | .panic => .panic

/-- `fetch_max`, `fetch_min`, `fetch_nand`: L164-173, L197-216. -/
def fetchBinF (a : Arch) (signed : Bool) : BinF → V → MemOrd → Fn
  | .nand, v, o => atomicNand a v o
  | .max, v, o => atomicMax a signed v o
  | .min, v, o => atomicMin a signed v o

/-- `fetch_not`, `fetch_neg`: L219-243. -/
def fetchUn (a : Arch) : Un → MemOrd → Fn
  | .not, o => atomicNot a o
  | .neg, o => atomicNeg a o

/-! ## Public operations -/

/-- A public operation: a method whose answer is decoded, or `fetch_update`. -/
inductive Body where
  | fn (x : Fn) (dec : Res V → IRes 128)
  | fetchUpdate (s g : MemOrd) (f : Closure V)

/-- The answer dropped: `store` returns nothing; `add` etc. (`src/utils.rs` L199-247), `not`, `neg` (L229-231,
L245-247) call the `fetch_` form. -/
def dropped : Res V → IRes 128
  | .val _ => .res .unit
  | r => .res r

/-- `.. & mask != 0` (`src/utils.rs` L249-299). -/
def masked (mask : V) : Res V → IRes 128
  | .val x => .flag (x &&& mask != 0)
  | r => .res r

/-- The code of each public operation (`src/lib.rs` forwards to the method of the same name; `fetch_update` is
`src/lib.rs` L3659-3676; the bit operations are `src/utils.rs` L249-299). -/
def body (a : Arch) (signed : Bool) : IOp 128 → Body
  | .load o => .fn (load a o) .res
  | .store v o => .fn (store a v o) dropped
  | .swap v o => .fn (atomicSwap a v o) .res
  | .compareExchange c n s f => .fn (compareExchange a c n s f) .res
  | .compareExchangeWeak c n s f => .fn (compareExchangeWeak a c n s f) .res
  | .fetchBin b v o => .fn (atomicBin a b v o) .res
  | .bin b v o => .fn (atomicBin a b v o) dropped
  | .fetchBinF b v o => .fn (fetchBinF a signed b v o) .res
  | .fetchUn u o => .fn (fetchUn a u o) .res
  | .un u o => .fn (fetchUn a u o) dropped
  | .bit .set n o => .fn (atomicBin a .or (wrappingShl1 n) o) (masked (wrappingShl1 n))
  | .bit .clear n o => .fn (atomicBin a .and (~~~(wrappingShl1 n)) o) (masked (wrappingShl1 n))
  | .bit .toggle n o => .fn (atomicBin a .xor (wrappingShl1 n) o) (masked (wrappingShl1 n))
  | .fetchUpdate s g f => .fetchUpdate s g f

/-- Program points. -/
inductive Pc where
  | start (b : Body)
  | fin (r : IRes 128)
  /-- in the loop of `atomic_update` (L230-238) -/
  | loop (f : V → V) (o : MemOrd) (dec : Res V → IRes 128) (prev : V)
  /-- in the loop of `fetch_update`; `hist`: the arguments its closure has had -/
  | upd (s g : MemOrd) (f : Closure V) (hist : List V) (prev : V)

/-- After the first read of `atomic_update`. -/
def afterRead (f : V → V) (o : MemOrd) (dec : Res V → IRes 128) : Res V → Pc
  | .val v => .loop f o dec v
  | r => .fin (dec r)

/-- After its compare-exchange: `Ok(x) => return x, Err(x) => prev = x`. -/
def afterCas (f : V → V) (o : MemOrd) (dec : Res V → IRes 128) : Res V → Pc
  | .ok x => .fin (dec (.val x))
  | .err x => .loop f o dec x
  | r => .fin (dec r)

/-- After the first read of `fetch_update`. -/
def afterLoad (s g : MemOrd) (f : Closure V) : Res V → Pc
  | .val v => .upd s g f [] v
  | r => .fin (.res r)

/-- After its compare-exchange. -/
def afterUpd (s g : MemOrd) (f : Closure V) (hist : List V) : Res V → Pc
  | .err x => .upd s g f hist x
  | r => .fin (.res r)

/-- Call `x`, whose answer goes to `k`, from where `atomic_update` is not called again. -/
def call (x : Fn) (k : Res V → Pc) : Next V (IRes 128) Pc :=
  match x with
  | .acc a d => .acc a (fun r => k (d r))
  | _ => .tau (k .panic)

/-- The code.  `atomic_update` is L223-239: its first read is Relaxed, its failure ordering Relaxed. -/
def next (a : Arch) : Pc → Next V (IRes 128) Pc
  | .start (.fn (.update f o) dec) => call (atomicLoad a .relaxed) (afterRead f o dec)
  | .start (.fn x dec) => call x (fun r => .fin (dec r))
  | .start (.fetchUpdate s g f) => call (load a g) (afterLoad s g f)
  | .fin r => .ret r
  | .loop f o dec prev => call (atomicCasWeak a prev (f prev) o .relaxed) (afterCas f o dec)
  | .upd s g f hist prev =>
    match f hist prev with
    | none => .ret (.res (.err prev))
    | some nx => call (compareExchangeWeak a prev nx s g) (afterUpd s g f (hist ++ [prev]))

/-- All operations of `AtomicI128` (`signed`) or `AtomicU128`. -/
def code (a : Arch) (signed : Bool) : Code V (IOp 128) (IRes 128) Pc where
  start op := .start (body a signed op)
  next := next a

/-- `is_lock_free()`: L473-475, L481-492.  `ct`: `cmpxchg16b` at compile time; `rt`: detected. -/
def isLockFree (a : Arch) (ct rt : Bool) : Bool :=
  match a with
  | .x86_64 => if ct then true else rt
  | _ => true

/-- `IS_ALWAYS_LOCK_FREE`: L477, L493. -/
def isAlwaysLockFree (a : Arch) (ct : Bool) : Bool :=
  match a with
  | .x86_64 => ct
  | _ => true

/-- Does every access go to the native compare-exchange (and not to the lock)?  L143-165. -/
def native (a : Arch) (ct rt : Bool) : Bool :=
  match a with
  | .x86_64 => if ct then true else if rt then true else false
  | _ => true

end Verif.Intr
