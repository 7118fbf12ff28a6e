/-
Run-time CPU feature detection and the function-pointer dispatch built on it.

Modelled code:
* `src/imp/detect/common.rs` L3-L74 (`CpuInfo`, `set`, `test`, `detect`), L76-L119 (`flags!`)
* `src/utils.rs` L57-L79 (`ifunc!`)
* the callers of `detect()` in `src/imp/atomic128/*.rs`, `src/imp/atomic64/*.rs` are instances of
  `Cfg` (see `Detect/Configs.lean`).

Both statics (`CACHE`, one `FUNC` per dispatch site) are accessed with `Relaxed` only.  The memory
here is an over-approximation that is *weaker than every C11-style memory model in which a read
reads from some write that has already happened* (po ∪ rf acyclic): a location is the list of all
the writes made to it so far, a load may return **any** of them — old or new, in any order, with
no coherence —, and the only guarantee kept is the atomicity of read-modify-writes: two successful
compare-exchanges never read from the same write (`taken`).
-/
import Mathlib.Logic.Function.Basic

namespace Verif.Detect

/-- `CpuInfo(u32)`: detect/common.rs L3-L5. -/
abbrev Info := BitVec 32

/-- `fn set(x: u32, bit: u32) -> u32 { x | (1 << bit) }`: detect/common.rs L19-L23. -/
def setBit (x : Info) (bit : Nat) : Info := x ||| (1#32 <<< bit)

/-- `fn test(x: u32, bit: u32) -> bool { x & (1 << bit) != 0 }`: detect/common.rs L24-L28. -/
def testBit (x : Info) (bit : Nat) : Bool := (x &&& (1#32 <<< bit)) != 0#32

/-- `CpuInfoFlag::Init = 0`: detect/common.rs L85. -/
def flagInit : Nat := 0

/-- The value `_detect` is called with: `CpuInfo(0)` with `Init` set; detect/common.rs L36-L40. -/
def initInfo : Info := setBit 0#32 flagInit

/-- A memory location accessed with `Relaxed`: every value ever written to it, each with a flag
saying whether a read-modify-write has already read from that write. -/
abbrev Cell (V : Type) := List (V × Bool)

/-- A static with its initial value (written before anything else). -/
def Cell.init {V : Type} (v : V) : Cell V := [(v, false)]

/-- A relaxed load: any value ever written. -/
def Cell.reads {V : Type} (c : Cell V) (v : V) : Prop := ∃ b, (v, b) ∈ c

/-- A relaxed store: one more write. -/
def Cell.write {V : Type} (c : Cell V) (v : V) : Cell V := (v, false) :: c

/-- A successful relaxed compare-exchange `e → n`: it reads from a write of `e` from which no
other read-modify-write has read, and adds the write of `n`. -/
inductive Cell.Cas {V : Type} (e n : V) : Cell V → Cell V → Prop
  | mk (a b : Cell V) : Cas e n (a ++ (e, false) :: b) ((n, false) :: (a ++ (e, true) :: b))

/-- A strong compare-exchange that fails reads a value other than the expected one. -/
def Cell.CasFail {V : Type} (c : Cell V) (e v : V) : Prop := c.reads v ∧ v ≠ e

/-- How a detection result is remembered.

* `cas`: detect/common.rs L60-L66, chosen by the `cfg!(any(...))` in L45-L58 when the result
  affects lock-freeness.
* `store`: detect/common.rs L67-L70.
* `none`: not at all; `has_kuser_cmpxchg64()` of atomic64/arm_linux.rs L68-L75 asks again every
  time. -/
inductive Memo
  | cas | store | none
deriving DecidableEq

/-- One build configuration of a backend with run-time detection.

* `memo`: how the detection result is remembered.
* `probe`: the values `_detect(CpuInfo::init)` may return.  It is a *set*, not a value: the model
  lets two calls give different answers (e.g. the thread migrated between unlike cores).
* `direct s`: the implementation if site `s` is resolved at compile time, `none` if it goes
  through `ifunc!`.
* `pick s v`: the function the `ifunc!` initialiser of site `s` returns for detection result `v`.
* `lfStatic`: what `is_lock_free()` returns at compile time, `none` if it calls `detect()`.
* `lfOf v`: what `is_lock_free()` returns for detection result `v`. -/
structure Cfg (Site Impl : Type) where
  memo : Memo
  probe : Info → Prop
  direct : Site → Option Impl
  pick : Site → Info → Impl
  lfStatic : Option Bool
  lfOf : Info → Bool

variable {Site Impl Tid : Type}

/-- Who called `detect()`: the initialiser of a dispatch site, `is_lock_free()`, or a caller that
looks at the flags themselves (the `debug_assert`s, e.g. atomic128/x86_64.rs L63-L90). -/
inductive Caller (Site : Type)
  | site (s : Site)
  | lockFree
  | query

/-- Where a thread is. -/
inductive Pc (Site Impl : Type)
  | idle
  /-- about to load `FUNC` of site `s` (utils.rs L71-L73) -/
  | func (s : Site)
  /-- about to load `CACHE` (common.rs L35) -/
  | cache (k : Caller Site)
  /-- about to run `_detect` (common.rs L39-L44) -/
  | probe (k : Caller Site)
  /-- about to publish `v` (common.rs L45-L73) -/
  | publish (k : Caller Site) (v : Info)
  /-- `detect()` returned `v` -/
  | got (k : Caller Site) (v : Info)
  /-- about to store the chosen function in `FUNC` (utils.rs L66) -/
  | setFunc (s : Site) (i : Impl)
  /-- about to call the chosen function (utils.rs L68, L77) -/
  | run (s : Site) (i : Impl)

/-- What a user can observe. -/
inductive Ev (Site Impl Tid : Type)
  /-- thread `t` performed the operation of site `s` with implementation `i` -/
  | used (t : Tid) (s : Site) (i : Impl)
  /-- `is_lock_free()` returned `b` in thread `t` -/
  | lockFree (t : Tid) (b : Bool)
  /-- `detect()` returned the flags `v` in thread `t` -/
  | info (t : Tid) (v : Info)

/-- The shared state: the two kinds of statics and the threads' positions. -/
structure State (Site Impl Tid : Type) where
  cache : Cell Info
  /-- `none` is the pointer to `init` (utils.rs L60-L61) -/
  func : Site → Cell (Option Impl)
  pc : Tid → Pc Site Impl

/-- Program start: detect/common.rs L34, utils.rs L60-L61. -/
def init : State Site Impl Tid :=
  { cache := Cell.init 0#32, func := fun _ => Cell.init none, pc := fun _ => .idle }

variable [DecidableEq Site] [DecidableEq Tid]

/-- Thread `t` moves to `p`. -/
def State.goto (s : State Site Impl Tid) (t : Tid) (p : Pc Site Impl) : State Site Impl Tid :=
  { s with pc := Function.update s.pc t p }

/-- One step of thread `t`, with what it makes observable. -/
inductive Step (C : Cfg Site Impl) (t : Tid) :
    State Site Impl Tid → Option (Ev Site Impl Tid) → State Site Impl Tid → Prop
  /-- call an operation whose implementation is fixed at compile time -/
  | callDirect {S} (s : Site) (i : Impl) (hp : S.pc t = .idle) (hd : C.direct s = some i) :
      Step C t S none (S.goto t (.run s i))
  /-- call an operation dispatched through `ifunc!` -/
  | callIfunc {S} (s : Site) (hp : S.pc t = .idle) (hd : C.direct s = none) :
      Step C t S none (S.goto t (.func s))
  /-- utils.rs L71-L73: `FUNC` still holds `init`, whose body calls `detect()` (L65) -/
  | funcInit {S} (s : Site) (hp : S.pc t = .func s) (hr : (S.func s).reads none) :
      Step C t S none (S.goto t (.cache (.site s)))
  /-- utils.rs L71-L77: `FUNC` holds a chosen function -/
  | funcSet {S} (s : Site) (i : Impl) (hp : S.pc t = .func s) (hr : (S.func s).reads (some i)) :
      Step C t S none (S.goto t (.run s i))
  /-- `is_lock_free()` known at compile time -/
  | lfStatic {S} (b : Bool) (hp : S.pc t = .idle) (hl : C.lfStatic = some b) :
      Step C t S (some (.lockFree t b)) S
  /-- `is_lock_free()` calls `detect()` -/
  | lfDetect {S} (hp : S.pc t = .idle) (hl : C.lfStatic = none) :
      Step C t S none (S.goto t (.cache .lockFree))
  /-- some code asks for the flags -/
  | query {S} (hp : S.pc t = .idle) : Step C t S none (S.goto t (.cache .query))
  /-- common.rs L35-L38: the cached answer is there -/
  | cacheHit {S} (k) (v : Info) (hp : S.pc t = .cache k) (hm : C.memo ≠ .none) (hr : S.cache.reads v)
      (hv : v ≠ 0#32) :
      Step C t S none (S.goto t (.got k v))
  /-- common.rs L35-L39: nothing cached yet -/
  | cacheMiss {S} (k) (hp : S.pc t = .cache k) (hm : C.memo ≠ .none) (hr : S.cache.reads 0#32) :
      Step C t S none (S.goto t (.probe k))
  /-- arm_linux.rs L68-L75: ask, remembering nothing -/
  | uncached {S} (k) (v : Info) (hp : S.pc t = .cache k) (hm : C.memo = .none) (hv : C.probe v) :
      Step C t S none (S.goto t (.got k v))
  /-- common.rs L39-L44: `_detect` -/
  | probe {S} (k) (v : Info) (hp : S.pc t = .probe k) (hv : C.probe v) :
      Step C t S none (S.goto t (.publish k v))
  /-- common.rs L60-L61: the compare-exchange succeeds -/
  | casOk {S} (k) (v : Info) (c : Cell Info) (hp : S.pc t = .publish k v) (hm : C.memo = .cas)
      (hc : Cell.Cas 0#32 v S.cache c) :
      Step C t S none ({ S with cache := c }.goto t (.got k v))
  /-- common.rs L62-L65: somebody else was first; take their answer -/
  | casFail {S} (k) (v v' : Info) (hp : S.pc t = .publish k v) (hm : C.memo = .cas)
      (hc : S.cache.CasFail 0#32 v') :
      Step C t S none (S.goto t (.got k v'))
  /-- common.rs L67-L70 -/
  | store {S} (k) (v : Info) (hp : S.pc t = .publish k v) (hm : C.memo = .store) :
      Step C t S none ({ S with cache := S.cache.write v }.goto t (.got k v))
  /-- the initialiser picks a function: utils.rs L65 -/
  | pick {S} (s : Site) (v : Info) (hp : S.pc t = .got (.site s) v) :
      Step C t S none (S.goto t (.setFunc s (C.pick s v)))
  /-- `is_lock_free()` tests the flag and returns -/
  | lfRet {S} (v : Info) (hp : S.pc t = .got .lockFree v) :
      Step C t S (some (.lockFree t (C.lfOf v))) (S.goto t .idle)
  | queryRet {S} (v : Info) (hp : S.pc t = .got .query v) :
      Step C t S (some (.info t v)) (S.goto t .idle)
  /-- utils.rs L66 -/
  | setFunc {S} (s : Site) (i : Impl) (hp : S.pc t = .setFunc s i) :
      Step C t S none
        ({ S with func := Function.update S.func s ((S.func s).write (some i)) }.goto t (.run s i))
  /-- utils.rs L68 / L77 -/
  | run {S} (s : Site) (i : Impl) (hp : S.pc t = .run s i) :
      Step C t S (some (.used t s i)) (S.goto t .idle)

/-- The executions: any interleaving of any number of threads, from program start, with the
observations made so far. -/
inductive Exec (C : Cfg Site Impl) :
    State Site Impl Tid → List (Ev Site Impl Tid) → Prop
  | start : Exec C init []
  | quiet {S S' h} (t : Tid) (x : Exec C S h) (st : Step C t S none S') : Exec C S' h
  | emit {S S' h} (t : Tid) (e) (x : Exec C S h) (st : Step C t S (some e) S') :
      Exec C S' (h ++ [e])

end Verif.Detect
