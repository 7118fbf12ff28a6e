import Verif.Arm.Code
import Verif.Spec.ArmOrder
/-!
# The events of a call (C38)
-/
set_option autoImplicit false
namespace Verif.Arm
open Verif.Lf Verif.Asm Verif.Wide

/-- Acquire flag of an instruction. -/
def acqOf (b : Bool) : Acq := if b then .full else .plain

/-- Events of an instruction that is not an `.inst` word; `wrote` says whether a conditional store
stored.  (Manual: `LDAR`, `LDAXP`, `CASPA`, `SWPPA`, … are Load-Acquire, `LDIAPP` is Load-AcquirePC,
`STLXP`, `STILP`, `CASPL`, `SWPPL`, … are Store-Release; a `CASP` whose comparison fails only reads.) -/
def Ins.ev (wrote : Bool) : Ins → List Ev
  | .ldp _ _ _ => [.rd .plain false]
  | .ldar _ _ => [.rd .full false]
  | .ldiapp _ _ _ => [.rd .pc false]
  | .stp _ _ _ => [.wr false false]
  | .stilp _ _ _ => [.wr true false]
  | .ldxp q _ _ _ => [.rd (acqOf q) false]
  | .stxp q _ _ _ _ => if wrote then [.wr q false] else []
  | .casp q q' _ _ _ _ _ => if wrote then [.rd (acqOf q) true, .wr q' true] else [.rd (acqOf q) true]
  | .pair _ q q' _ _ _ => [.rd (acqOf q) true, .wr q' true]
  | .dmb .ish => [.full]
  | .dmb .ishld => [.ld]
  | _ => []

/-- Events of an instruction. -/
def Ins.events (wrote : Bool) : Ins → List Ev
  | .inst w => match decode w with
    | some i => i.ev wrote
    | none => []
  | i => i.ev wrote

/-- Did a compare-exchange store? -/
def stored : Res (BitVec 128) → Bool
  | .err _ => false
  | _ => true

/-- A call can go from `(pc, s)` to its end with the given events, whatever other threads do (every
access may find any value). -/
inductive Trace (E : Env) (c : Call) : Nat → St → List Ev → Prop where
  | done {pc s} (h : ((c.block E).code E.endian c.al)[pc]? = none) : Trace E c pc s []
  | go {pc s i s' t} (hp : ((c.block E).code E.endian c.al)[pc]? = some i)
      (h : i.sem E.cpu E.endian c.addr s = .go s') (r : Trace E c (pc + 1) s' t) :
      Trace E c pc s (i.events false ++ t)
  | br {pc s i b n t} (hp : ((c.block E).code E.endian c.al)[pc]? = some i)
      (h : i.sem E.cpu E.endian c.addr s = .br b n) (r : Trace E c (if b then n else pc + 1) s t) :
      Trace E c pc s (i.events false ++ t)
  | acc {pc s i a k x x' v t} (hp : ((c.block E).code E.endian c.al)[pc]? = some i)
      (h : i.sem E.cpu E.endian c.addr s = .acc a k) (hs : a.sem x x' v)
      (r : Trace E c (pc + 1) (k v) t) : Trace E c pc s (i.events (stored v) ++ t)
  | ll {pc s i k x t} (hp : ((c.block E).code E.endian c.al)[pc]? = some i)
      (h : i.sem E.cpu E.endian c.addr s = .ll k)
      (r : Trace E c (pc + 1) (k x) t) : Trace E c pc s (i.events false ++ t)
  | ll2 {pc s i w k w0 w1 t} (hp : ((c.block E).code E.endian c.al)[pc]? = some i)
      (h : i.sem E.cpu E.endian c.addr s = .ll2 w k)
      (r : Trace E c (pc + 1) (k w0 w1) t) : Trace E c pc s (i.events false ++ t)
  | sc {pc s i v k ok t} (hp : ((c.block E).code E.endian c.al)[pc]? = some i)
      (h : i.sem E.cpu E.endian c.addr s = .sc v k)
      (r : Trace E c (pc + 1) (k ok) t) : Trace E c pc s (i.events ok ++ t)

/-- The events of a completed call. -/
def Call.Events (E : Env) (c : Call) (t : List Ev) : Prop := Trace E c 0 (c.entry E) t

end Verif.Arm
