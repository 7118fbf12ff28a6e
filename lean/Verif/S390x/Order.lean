import Verif.S390x.Code
import Verif.Spec.S390xOrder
/-!
# The events of a call of the s390x back end (C42)
-/
set_option autoImplicit false
namespace Verif.S390x
open Verif.Lf Verif.Asm Verif.Wide

/-- Events of an instruction, with what its access to the object returned.  `cdsg` serializes before and
after; `bcr 15, 0` serializes, and `bcr 14, 0` does so on processors with the facility. -/
def Ins.events (f : Feat) (v : Res (BitVec 128)) : Ins → List Ev
  | .lpq _ _ | .lg _ _ _ => [.rd]
  | .stpq _ _ => [.wr]
  | .cdsg _ _ _ => match v with
    | .ok _ => [.ser, .rd, .wr, .ser]
    | _ => [.ser, .rd, .ser]
  | .bcr m => if m = 15 ∨ (m = 14 ∧ f.fast = true) then [.ser] else []
  | _ => []

/-- A call can go from `(pc, s)` to its end in state `s'` with the given events, whatever other threads
do (every access may find any value). -/
inductive Trace (E : Env) (c : Call) : Nat → St → List Ev → St → Prop where
  | done {pc s} (h : ((c.block E).code E.cfg c.r)[pc]? = none) : Trace E c pc s [] s
  | go {pc s i s1 t s'} (hp : ((c.block E).code E.cfg c.r)[pc]? = some i)
      (h : i.sem E.cpu c.addr s = .go s1) (r : Trace E c (pc + 1) s1 t s') :
      Trace E c pc s (i.events E.cpu .unit ++ t) s'
  | br {pc s i b n t s'} (hp : ((c.block E).code E.cfg c.r)[pc]? = some i)
      (h : i.sem E.cpu c.addr s = .br b n) (r : Trace E c (if b then n else pc + 1) s t s') :
      Trace E c pc s (i.events E.cpu .unit ++ t) s'
  | acc {pc s i a k x x' v t s'} (hp : ((c.block E).code E.cfg c.r)[pc]? = some i)
      (h : i.sem E.cpu c.addr s = .acc a k) (hs : a.sem x x' v)
      (r : Trace E c (pc + 1) (k v) t s') : Trace E c pc s (i.events E.cpu v ++ t) s'

/-- The events and result of a completed call. -/
def Call.Events (E : Env) (c : Call) (t : List Ev) (r : Res (BitVec 128)) : Prop :=
  ∃ s, Trace E c 0 (c.entry E) t s ∧ r = c.result s

end Verif.S390x
