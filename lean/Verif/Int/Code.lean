import Verif.Lf.Prog
/-!
# Integer atomics

Models the integer operations of `src/lib.rs` L2780-3993 (which forward to `imp`) on these
implementations:

* `core`: `src/imp/core_atomic.rs` L245-531, with the configuration-dependent parts as flags:
  `minMaxLoop` (L384-433, L439-488: 8/16-bit `fetch_max`/`fetch_min` on some targets, or
  `portable_atomic_no_atomic_min_max`), `x86` (`src/imp/x86.rs` L80-137: `lock not` / `lock neg`),
  `bitAsm` (`src/imp/x86.rs` L174-253: `lock bts`/`btr`/`btc`, pre-LLVM-16).
* `fallback`: `src/imp/fallback/mod.rs` L265-536 (each `fetch_*` is a locked read-modify-write, one
  indivisible step by C01).
* `riscvAmo`: `src/imp/riscv.rs` L287-386, word-sized (or Zabha) AMO instructions; no
  compare-exchange exists there, so operations needing it are rejected at compile time (`none`).
* `avrRmw`: `src/imp/avr.rs` L42-155 (8-bit only).

`core::sync::atomic`'s own `fetch_*` (reached by `Deref`) are single indivisible steps.
`V = BitVec w`; a signed type is the same bits (`signed`).
-/
namespace Verif.Int
open Verif.Lf

/-- Binary operations with both a `fetch_` and a plain form. -/
inductive Bin where
  | add | sub | and | or | xor
deriving DecidableEq

/-- Binary operations with only a `fetch_` form. -/
inductive BinF where
  | nand | max | min
deriving DecidableEq

/-- Unary operations with a `fetch_` and a plain form. -/
inductive Un where
  | not | neg
deriving DecidableEq

/-- Bit operations. -/
inductive BitOp where
  | set | clear | toggle
deriving DecidableEq

/-- The public operations on an integer atomic of `w` bits. -/
inductive IOp (w : Nat) where
  | load (o : MemOrd)
  | store (v : BitVec w) (o : MemOrd)
  | swap (v : BitVec w) (o : MemOrd)
  | compareExchange (cur new : BitVec w) (s f : MemOrd)
  | compareExchangeWeak (cur new : BitVec w) (s f : MemOrd)
  | fetchBin (b : Bin) (v : BitVec w) (o : MemOrd)
  | bin (b : Bin) (v : BitVec w) (o : MemOrd)
  | fetchBinF (b : BinF) (v : BitVec w) (o : MemOrd)
  | fetchUn (u : Un) (o : MemOrd)
  | un (u : Un) (o : MemOrd)
  | bit (b : BitOp) (n : BitVec 32) (o : MemOrd)
  | fetchUpdate (set fetch : MemOrd) (f : Closure (BitVec w))

/-- Results: those of `Res`, or a boolean. -/
inductive IRes (w : Nat) where
  | res (r : Res (BitVec w))
  | flag (b : Bool)
deriving DecidableEq

/-- Which implementation. -/
inductive Backend where
  | core (minMaxLoop x86 bitAsm : Bool)
  | fallback
  | riscvAmo
  | avrRmw
deriving DecidableEq

variable {w : Nat}

abbrev P (w : Nat) := Prog (BitVec w) (IRes w)

/-- One access, answer passed on. -/
def one (a : Acc (BitVec w)) : P w := .one a .res

/-- Drop the value (`fn add(..) { self.fetch_add(..); }`). -/
def dropVal : IRes w → IRes w
  | .res (.val _) => .res .unit
  | r => r

/-- `fn add(..) { self.fetch_add(..); }`: run the program and drop its answer. -/
def drop : P w → P w
  | .stop r => .stop (dropVal r)
  | .one a dec => .one a (fun r => dropVal (dec r))
  | .loop rd f o dec => .loop rd f o (fun v => dropVal (dec v))
  | .update s g f dec => .update s g f (fun r => dropVal (dec r))

/-- `fetch_update_`, `src/imp/core_atomic.rs` L364-378. -/
def fetchUpdate_ (o : MemOrd) (f : BitVec w → BitVec w) : P w :=
  .loop (.op (.load .relaxed)) f o (fun v => .res (.val v))

/-- `core::cmp::max(x, val)` for the type's signedness. -/
def cmpMax (signed : Bool) (x v : BitVec w) : BitVec w :=
  if signed then (if x.slt v then v else if v.slt x then x else v)
  else (if x.ult v then v else if v.ult x then x else v)

/-- `core::cmp::min(x, val)`. -/
def cmpMin (signed : Bool) (x v : BitVec w) : BitVec w :=
  if signed then (if v.slt x then v else x) else (if v.ult x then v else x)

/-- The functions applied by `fetch_add`, …: `wrapping_add` etc. (`src/imp/fallback/mod.rs` L449,
L458, L467, L485, L494; the same functions are `core`'s documented meaning). -/
def Bin.fn (b : Bin) (v x : BitVec w) : BitVec w :=
  match b with
  | .add => x + v
  | .sub => x - v
  | .and => x &&& v
  | .or => x ||| v
  | .xor => x ^^^ v

/-- `src/imp/fallback/mod.rs` L476, L522, L531. -/
def BinF.fn (signed : Bool) (b : BinF) (v x : BitVec w) : BitVec w :=
  match b with
  | .nand => ~~~(x &&& v)
  | .max => cmpMax signed x v
  | .min => cmpMin signed x v

/-- An indivisible read-modify-write returning the old value. -/
def rmw (f : BitVec w → BitVec w) (o : MemOrd) : P w := one (.op (.rmw f o))

/-- AVR `lac`: `_x = *Z; *Z &= !val; val = _x` (`src/imp/avr.rs` L106). -/
def lac (r : BitVec w) (o : MemOrd) : P w := rmw (fun x => x &&& ~~~r) o

/-- `fetch_add`, `fetch_sub`, `fetch_and`, `fetch_or`, `fetch_xor`.
`core`: `Deref` to `core::sync::atomic`; `fallback` L445-496; `riscvAmo`: L294-324, where `fetch_sub`
is `fetch_add(val.wrapping_neg())` (L301-303); `avrRmw`: L98-149, where `fetch_and` uses `lac` with
`!val`, and there is no `fetch_add`/`fetch_sub`. -/
def fetchBin (k : Backend) (b : Bin) (v : BitVec w) (o : MemOrd) : Option (P w) :=
  match k, b with
  | .core _ _ _, b => some (rmw (b.fn v) o)
  | .fallback, b => some (rmw (b.fn v) o)
  | .riscvAmo, .sub => some (rmw (Bin.fn .add (-v)) o)
  | .riscvAmo, b => some (rmw (b.fn v) o)
  | .avrRmw, .and => some (lac (~~~v) o)
  | .avrRmw, .or => some (rmw (Bin.fn .or v) o)
  | .avrRmw, .xor => some (rmw (Bin.fn .xor v) o)
  | .avrRmw, _ => none

/-- `fetch_nand`, `fetch_max`, `fetch_min`.  `core`: L381-488; `fallback`: L472, L518-533;
`riscvAmo`: `amomax[u]`/`amomin[u]` L359-371, no `fetch_nand`. -/
def fetchBinF (signed : Bool) (k : Backend) (b : BinF) (v : BitVec w) (o : MemOrd) : Option (P w) :=
  match k, b with
  | .core _ _ _, .nand => some (rmw (BinF.fn signed .nand v) o)
  | .core true _ _, b => some (fetchUpdate_ o (BinF.fn signed b v))
  | .core false _ _, b => some (rmw (BinF.fn signed b v) o)
  | .fallback, b => some (rmw (BinF.fn signed b v) o)
  | .riscvAmo, .nand => none
  | .riscvAmo, b => some (rmw (BinF.fn signed b v) o)
  | .avrRmw, _ => none

/-- `fetch_not`, `fetch_neg`.  `core` L491-499: `fetch_xor(!0)` and a loop; `fallback` L499-514;
`riscvAmo` L351-357: `amoxor` with all ones; `avrRmw` L152-154. -/
def fetchUn (k : Backend) (u : Un) (o : MemOrd) : Option (P w) :=
  match k, u with
  | .core _ _ _, .not => fetchBin k .xor (~~~0) o
  | .core _ _ _, .neg => some (fetchUpdate_ o (fun x => -x))
  | .fallback, .not => some (rmw (fun x => ~~~x) o)
  | .fallback, .neg => some (rmw (fun x => -x) o)
  | .riscvAmo, .not => fetchBin k .xor (~~~0) o
  | .riscvAmo, .neg => none
  | .avrRmw, .not => fetchBin k .xor (~~~0) o
  | .avrRmw, .neg => none

/-- `not`, `neg`.  x86: `lock not` (`src/imp/x86.rs` L84-98), `lock neg` (L100-115), each one
indivisible instruction whatever the ordering; otherwise the `fetch_` form with its answer dropped
(`src/imp/core_atomic.rs` L511-518, `fallback/mod.rs` L301-307, `riscv.rs` L381-383). -/
def un (k : Backend) (u : Un) (o : MemOrd) : Option (P w) :=
  match k, u with
  | .core _ true _, .not => some (drop (rmw (fun x => ~~~x) .seqCst))
  | .core _ true _, .neg => some (drop (rmw (fun x => 0 - x) .seqCst))
  | k, u => (fetchUn k u o).map drop

/-- `<$int_type>::wrapping_shl(1, bit)`: shift by `bit & (BITS - 1)`. -/
def wrappingShl1 (n : BitVec 32) : BitVec w := (1 : BitVec w) <<< (n.toNat &&& (w - 1))

/-- `… & mask != 0`. -/
def testMask (mask : BitVec w) : IRes w → IRes w
  | .res (.val x) => .flag (x &&& mask != 0)
  | r => r

/-- Post-process the answer. -/
def mapRes (g : IRes w → IRes w) : P w → P w
  | .stop r => .stop (g r)
  | .one a dec => .one a (fun r => g (dec r))
  | .loop rd f o dec => .loop rd f o (fun v => g (dec v))
  | .update s g' f dec => .update s g' f (fun r => g (dec r))

/-- x86 `bts`/`btr`/`btc` with a register bit offset already reduced below the operand size: sets,
resets, complements that bit and puts its old value in the carry flag. -/
def btFn (b : BitOp) (i : Nat) (x : BitVec w) : BitVec w :=
  match b with
  | .set => x ||| (1#w <<< i)
  | .clear => x &&& ~~~(1#w <<< i)
  | .toggle => x ^^^ (1#w <<< i)

/-- The answer `setb r; r != 0`: the carry flag is the old bit. -/
def carry (i : Nat) : Res (BitVec w) → IRes w
  | .val x => .flag (x.getLsbD i)
  | r => .res r

/-- `impl_default_bit_opts`, `src/utils.rs` L278-299. -/
def bitDefault (k : Backend) (b : BitOp) (n : BitVec 32) (o : MemOrd) : Option (P w) :=
  let mask : BitVec w := wrappingShl1 n
  match b with
  | .set => (fetchBin k .or mask o).map (mapRes (testMask mask))
  | .clear => (fetchBin k .and (~~~mask) o).map (mapRes (testMask mask))
  | .toggle => (fetchBin k .xor mask o).map (mapRes (testMask mask))

/-- `bit_set`, `bit_clear`, `bit_toggle`: the default, or `src/imp/x86.rs` L179-252 where the bit
number is `bit & (BITS - 1)`. -/
def bit (k : Backend) (b : BitOp) (n : BitVec 32) (o : MemOrd) : Option (P w) :=
  match k with
  | .core _ _ true =>
    some (.one (.op (.rmw (btFn b (n.toNat &&& (w - 1))) .seqCst)) (carry (n.toNat &&& (w - 1))))
  | k => bitDefault k b n o

/-- Does the implementation have a compare-exchange? -/
def Backend.hasCas : Backend → Bool
  | .core _ _ _ | .fallback => true
  | .riscvAmo | .avrRmw => false

/-- The plain forms `add`, `sub`, `and`, `or`, `xor` (`src/utils.rs` L219-247): the `fetch_` form
with its answer dropped. -/
def bin (k : Backend) (b : Bin) (v : BitVec w) (o : MemOrd) : Option (P w) :=
  (fetchBin k b v o).map drop

/-- The code of each public operation; `none` when the operation does not exist on that
implementation.  `compare_exchange[_weak]`: `core_atomic.rs` L330-358 (ordering check, then the
access; `fallback`'s weak form is the strong one, L290-299, which `casWeak` allows). `fetch_update`:
`src/lib.rs` L3659-3676. -/
def prog (signed : Bool) (k : Backend) : IOp w → Option (P w)
  | .load o => some (one (.op (.load o)))
  | .store v o => some (one (.op (.store v o)))
  | .swap v o => some (one (.op (.swap v o)))
  | .compareExchange c n s f => if k.hasCas then some (one (.op (.cas c n s f))) else none
  | .compareExchangeWeak c n s f => if k.hasCas then some (one (.casWeak c n s f)) else none
  | .fetchBin b v o => fetchBin k b v o
  | .bin b v o => bin k b v o
  | .fetchBinF b v o => fetchBinF signed k b v o
  | .fetchUn u o => fetchUn k u o
  | .un u o => un k u o
  | .bit b n o => bit k b n o
  | .fetchUpdate s g f => if k.hasCas then some (.update s g f .res) else none

end Verif.Int
