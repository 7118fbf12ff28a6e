import Verif.Rv32.Code
import Verif.Spec.Rv64Order
/-!
# The events of a call of the riscv32 back end (C46)
-/
set_option autoImplicit false
namespace Verif.Rv32
open Verif.Lf Verif.Asm Verif.Wide
export Verif.Rv64 (Ev)

/-- The event of an `amocas.d`, with what it returned.  One that fails does not write, and has no release
semantics (Zacas chapter).  (It may write back what it read; that is not seen here.) -/
def amoEvent (aq rl : Bool) : Res (BitVec 64) → Ev
  | .ok _ => .acc true true aq rl
  | _ => .acc true false aq false

/-- Events of an instruction, with what its access to the object returned. -/
def Ins.events (v : Res (BitVec 64)) : Ins → List Ev
  | .fence => [.full]
  | .lw _ _ _ => [.acc true false false false]
  | .amocas aq rl _ _ _ => [amoEvent aq rl v]
  | .word w => match decode w with
    | some (.amocas aq rl _ _ _) => [amoEvent aq rl v]
    | _ => []
  | _ => []

/-- A call can go from `(pc, s)` to its end in state `s'` in `n` steps with the given events, whatever
other threads do (every access may find any value). -/
inductive Trace (E : Env) (c : Call) : Nat → Nat → St → List Ev → St → Prop where
  | done {pc s} (h : ((blocks E).prog c)[pc]? = none) : Trace E c 0 pc s [] s
  | go {n pc s i s1 t s'} (hp : ((blocks E).prog c)[pc]? = some i)
      (h : (blocks E).sem c i s = .go s1) (r : Trace E c n (pc + 1) s1 t s') :
      Trace E c (n + 1) pc s (i.events .unit ++ t) s'
  | br {n pc s i b k t s'} (hp : ((blocks E).prog c)[pc]? = some i)
      (h : (blocks E).sem c i s = .br b k) (r : Trace E c n (if b then k else pc + 1) s t s') :
      Trace E c (n + 1) pc s (i.events .unit ++ t) s'
  | acc {n pc s i a k x x' v t s'} (hp : ((blocks E).prog c)[pc]? = some i)
      (h : (blocks E).sem c i s = .acc a k) (hs : a.sem x x' v)
      (r : Trace E c n (pc + 1) (k v) t s') : Trace E c (n + 1) pc s (i.events v ++ t) s'

/-- The events and result of a completed call. -/
def Call.Events (E : Env) (c : Call) (t : List Ev) (r : Res (BitVec 64)) : Prop :=
  ∃ n s, Trace E c n 0 (c.entry E) t s ∧ r = c.result s

end Verif.Rv32
