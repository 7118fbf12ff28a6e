import Verif.Lf.Access
/-!
# `AtomicBool`

Models `src/lib.rs` L741-1644 (`impl AtomicBool`).  The object is one byte (`v: UnsafeCell<u8>`),
every operation goes through `as_atomic_u8` (L1639-1643).  `amo` selects the code under
`cfg(any(target_arch = "riscv32", "riscv64", "loongarch32", "loongarch64"))`, which has AND/OR/XOR
but no byte swap / byte compare-exchange instruction.
Simplified: the closure of `fetch_update` is any function of the values it has been called with so
far (a deterministic `FnMut`) and does not itself touch atomics or panic.
-/
namespace Verif.Bool
open Verif.Lf

/-- A `FnMut(bool) -> Option<bool>`: answer for the next argument, given the previous arguments. -/
abbrev Closure (V : Type) := List V → V → Option V

/-- The operations of `AtomicBool`. -/
inductive BOp where
  | load (o : MemOrd)
  | store (v : Bool) (o : MemOrd)
  | swap (v : Bool) (o : MemOrd)
  | compareExchange (cur new : Bool) (s f : MemOrd)
  | compareExchangeWeak (cur new : Bool) (s f : MemOrd)
  | fetchAnd (v : Bool) (o : MemOrd)
  | and (v : Bool) (o : MemOrd)
  | fetchNand (v : Bool) (o : MemOrd)
  | fetchOr (v : Bool) (o : MemOrd)
  | or (v : Bool) (o : MemOrd)
  | fetchXor (v : Bool) (o : MemOrd)
  | xor (v : Bool) (o : MemOrd)
  | fetchNot (o : MemOrd)
  | not (o : MemOrd)
  | fetchUpdate (set fetch : MemOrd) (f : Closure Bool)

/-- `val as u8`. -/
def byte (b : Bool) : BitVec 8 := if b then 1 else 0

/-- `x != 0`. -/
def ofByte (x : BitVec 8) : Bool := x != 0

/-- Code that makes one access to the byte and decodes its answer, or panics before it. -/
inductive One where
  | panic
  | acc (a : Acc (BitVec 8)) (dec : Res (BitVec 8) → Res Bool)

/-- `… != 0` on the answer of a value-returning access; a panic of the access propagates. -/
def decVal : Res (BitVec 8) → Res Bool
  | .val x => .val (ofByte x)
  | .panic => .panic
  | .unit => .unit
  | .ok x => .ok (ofByte x)
  | .err x => .err (ofByte x)

/-- The answer is dropped (`and`, `or`, `xor`, `store`). -/
def decUnit : Res (BitVec 8) → Res Bool
  | .panic => .panic
  | _ => .unit

/-- L954-956. -/
def load (o : MemOrd) : One := .acc (.op (.load o)) decVal
/-- L982-984. -/
def store (v : Bool) (o : MemOrd) : One := .acc (.op (.store (byte v) o)) decUnit
/-- L1223-1225. -/
def fetchAnd (v : Bool) (o : MemOrd) : One := .acc (.op (.rmw (· &&& byte v) o)) decVal
/-- L1267-1269; the integer `and` stores the same value (`src/utils.rs` L200-245 or one locked AND). -/
def and (v : Bool) (o : MemOrd) : One := .acc (.op (.rmw (· &&& byte v) o)) decUnit
/-- L1347-1349. -/
def fetchOr (v : Bool) (o : MemOrd) : One := .acc (.op (.rmw (· ||| byte v) o)) decVal
/-- L1391-1393. -/
def or (v : Bool) (o : MemOrd) : One := .acc (.op (.rmw (· ||| byte v) o)) decUnit
/-- L1426-1428. -/
def fetchXor (v : Bool) (o : MemOrd) : One := .acc (.op (.rmw (· ^^^ byte v) o)) decVal
/-- L1470-1472. -/
def xor (v : Bool) (o : MemOrd) : One := .acc (.op (.rmw (· ^^^ byte v) o)) decUnit
/-- L1006-1028. -/
def swap (amo : Bool) (v : Bool) (o : MemOrd) : One :=
  if amo then
    if v then fetchOr true o else fetchAnd false o
  else .acc (.op (.swap (byte v) o)) decVal
/-- L1303-1314. -/
def fetchNand (amo : Bool) (v : Bool) (o : MemOrd) : One :=
  if v then fetchXor true o else swap amo true o
/-- L1501-1503. -/
def fetchNot (o : MemOrd) : One := fetchXor true o
/-- L1541-1543. -/
def not (o : MemOrd) : One := xor true o

/-- L1099 `if old == current { Ok(old) } else { Err(old) }`. -/
def okErr (cur : Bool) : Res Bool → Res Bool
  | .val old => if old = cur then .ok old else .err old
  | r => r

/-- Apply a function to the decoded answer. -/
def One.map (g : Res Bool → Res Bool) : One → One
  | .panic => .panic
  | .acc a dec => .acc a (fun r => g (dec r))

/-- L1072-1113. -/
def compareExchange (amo : Bool) (cur new : Bool) (s f : MemOrd) : One :=
  if amo then
    match MemOrd.assertCas s f with
    | .panic => .panic
    | .ok =>
      let order := MemOrd.upgradeSuccess s f
      if cur = new then (fetchOr false order).map (okErr cur)
      else (swap amo new order).map (okErr cur)
  else .acc (.op (.cas (byte cur) (byte new) s f)) decVal

/-- L1156-1190. -/
def compareExchangeWeak (amo : Bool) (cur new : Bool) (s f : MemOrd) : One :=
  if amo then compareExchange amo cur new s f
  else .acc (.casWeak (byte cur) (byte new) s f) decVal

/-- Local states of a running call. -/
inductive Pc where
  /-- about to run a single-access operation -/
  | one (p : One)
  /-- about to return -/
  | fin (r : Res Bool)
  /-- `fetch_update` before its first load (L1603) -/
  | updStart (set fetch : MemOrd) (f : Closure Bool)
  /-- `fetch_update` at the loop head (L1604): arguments so far and `prev` -/
  | updLoop (set fetch : MemOrd) (f : Closure Bool) (hist : List Bool) (prev : Bool)

/-- The code of each operation. -/
def start (amo : Bool) : BOp → Pc
  | .load o => .one (load o)
  | .store v o => .one (store v o)
  | .swap v o => .one (swap amo v o)
  | .compareExchange c n s f => .one (compareExchange amo c n s f)
  | .compareExchangeWeak c n s f => .one (compareExchangeWeak amo c n s f)
  | .fetchAnd v o => .one (fetchAnd v o)
  | .and v o => .one (and v o)
  | .fetchNand v o => .one (fetchNand amo v o)
  | .fetchOr v o => .one (fetchOr v o)
  | .or v o => .one (or v o)
  | .fetchXor v o => .one (fetchXor v o)
  | .xor v o => .one (xor v o)
  | .fetchNot o => .one (fetchNot o)
  | .not o => .one (not o)
  | .fetchUpdate s g f => .updStart s g f

/-- Run a single-access operation and continue with its decoded answer. -/
def One.next (p : One) (k : Res Bool → Pc) : Next (BitVec 8) (Res Bool) Pc :=
  match p with
  | .panic => .tau (k .panic)
  | .acc a dec => .acc a (fun r => k (dec r))

/-- L1603: the result of the first load is `prev` (or the load panicked). -/
def afterLoad (s g : MemOrd) (f : Closure Bool) : Res Bool → Pc
  | .val v => .updLoop s g f [] v
  | r => .fin r

/-- L1605-1608. -/
def afterCas (s g : MemOrd) (f : Closure Bool) (hist : List Bool) : Res Bool → Pc
  | .ok x => .fin (.ok x)
  | .err x => .updLoop s g f hist x
  | r => .fin r

/-- L1594-1611 for the loop, the single-access operations otherwise. -/
def next (amo : Bool) : Pc → Next (BitVec 8) (Res Bool) Pc
  | .one p => p.next .fin
  | .fin r => .ret r
  | .updStart s g f => (load g).next (afterLoad s g f)
  | .updLoop s g f hist prev =>
    match f hist prev with
    | none => .ret (.err prev)
    | some nx => (compareExchangeWeak amo prev nx s g).next (afterCas s g f (hist ++ [prev]))

/-- `AtomicBool`'s operations as programs over the byte. -/
def code (amo : Bool) : Code (BitVec 8) BOp (Res Bool) Pc where
  start := start amo
  next := next amo

/-- `into_inner` L923-928 on the byte. -/
def intoInner (x : BitVec 8) : Bool := ofByte x

/-- `get_mut` L896-899 and `as_ptr` L1633-1635 reinterpret the byte as a `bool`; that is only defined
for the two valid representations. -/
def asBool (x : BitVec 8) : Option Bool :=
  if x = 0 then some false else if x = 1 then some true else none

end Verif.Bool
