import Verif.Irq.Code
import Verif.Cs.Code
/-!
# Specification: how long an operation takes

Counting steps of the machines of `Irq/Code.lean` and `Cs/Code.lean`.
-/
set_option autoImplicit false
namespace Verif.Irq
variable {n : Nat} {C : Type} [DecidableEq C]

/-- Execution while the call of context `t` stays open.  The number counts the steps of `t` itself; interrupts taken
on top of `t` and whatever their handlers do are not counted. -/
inductive During (K : Cfg n C) (t : Tid) : State K.arch.w n C → Nat → State K.arch.w n C → Prop where
  | refl (s) : During K t s 0 s
  | own {s k s' s''} (x : During K t s k s') (h1 : s'.top.tid = t) (h2 : s''.top.tid = t) (st : Step K s' none s'') :
      During K t s (k + 1) s''
  | other {s k s' e s''} (x : During K t s k s') (h : s'.top.tid ≠ t ∨ s''.top.tid ≠ t) (st : Step K s' e s'') :
      During K t s k s''

/-- Execution of that many steps at the beginning and end of each of which no interrupt is taken. -/
inductive Refused (K : Cfg n C) : State K.arch.w n C → Nat → State K.arch.w n C → Prop where
  | refl (s) (h : K.arch.enabled s.sr = false) (hw : s.win = false) : Refused K s 0 s
  | step {s k s' e s''} (x : Refused K s k s') (st : Step K s' e s'') (h : K.arch.enabled s''.sr = false)
      (hw : s''.win = false) : Refused K s (k + 1) s''

end Verif.Irq

namespace Verif.Cs
open Verif.Irq
variable {n : Nat} {C : Type} [DecidableEq C]

/-- Execution while the call of `t` stays open, counting the steps of `t`: all steps but those that leave `t` where
it is. -/
inductive During (K : Cfg n C) (t : Tid) : State n C → Nat → State n C → Prop where
  | refl (s) : During K t s 0 s
  | own {s k s' s''} (pc m' held' pc') (x : During K t s k s') (h : s'.th t = some pc) (ha : Act K t s' pc m' held' pc')
      (hs : s'' = { mem := m', held := held', th := Function.update s'.th t (some pc') }) : During K t s (k + 1) s''
  | other {s k s' e s''} (x : During K t s k s') (h : s''.th t = s'.th t) (st : Step K s' e s'') : During K t s k s''

end Verif.Cs
