import Verif.Spec.Object
import Verif.Bool.Code
/-!
# Specification: a shared boolean

What each `AtomicBool` operation means on a plain `bool` (only the operation names come from the
model).
-/
namespace Verif.Bool
open Verif.Object

/-- May `op` take the boolean from `x` to `y` and return `r`? -/
inductive Sem : BOp → Bool → Bool → Res Bool → Prop where
  | load {o x} : o ≠ .release → o ≠ .acqRel → Sem (.load o) x x (.val x)
  | loadPanic {o x} : o = .release ∨ o = .acqRel → Sem (.load o) x x .panic
  | store {o v x} : o ≠ .acquire → o ≠ .acqRel → Sem (.store v o) x v .unit
  | storePanic {o v x} : o = .acquire ∨ o = .acqRel → Sem (.store v o) x x .panic
  | swap {o v x} : Sem (.swap v o) x v (.val x)
  | casOk {s f c n} : f ≠ .release → f ≠ .acqRel → Sem (.compareExchange c n s f) c n (.ok c)
  | casErr {s f c n x} : f ≠ .release → f ≠ .acqRel → x ≠ c →
      Sem (.compareExchange c n s f) x x (.err x)
  | casPanic {s f c n x} : f = .release ∨ f = .acqRel → Sem (.compareExchange c n s f) x x .panic
  | casWeakOk {s f c n} : f ≠ .release → f ≠ .acqRel → Sem (.compareExchangeWeak c n s f) c n (.ok c)
  | casWeakErr {s f c n x} : f ≠ .release → f ≠ .acqRel → Sem (.compareExchangeWeak c n s f) x x (.err x)
  | casWeakPanic {s f c n x} : f = .release ∨ f = .acqRel →
      Sem (.compareExchangeWeak c n s f) x x .panic
  | fetchAnd {o v x} : Sem (.fetchAnd v o) x (x && v) (.val x)
  | and {o v x} : Sem (.and v o) x (x && v) .unit
  | fetchNand {o v x} : Sem (.fetchNand v o) x (!(x && v)) (.val x)
  | fetchOr {o v x} : Sem (.fetchOr v o) x (x || v) (.val x)
  | or {o v x} : Sem (.or v o) x (x || v) .unit
  | fetchXor {o v x} : Sem (.fetchXor v o) x (x != v) (.val x)
  | xor {o v x} : Sem (.xor v o) x (x != v) .unit
  | fetchNot {o x} : Sem (.fetchNot o) x (!x) (.val x)
  | not {o x} : Sem (.not o) x (!x) .unit
  /-- the closure, asked about the value it finds, says `w`; `w` replaces that value -/
  | updateOk {s g f x w} (hist : List Bool) : g ≠ .release → g ≠ .acqRel → f hist x = some w →
      Sem (.fetchUpdate s g f) x w (.ok x)
  /-- the closure, asked about the value it finds, says `None`; nothing changes -/
  | updateErr {s g f x} (hist : List Bool) : g ≠ .release → g ≠ .acqRel → f hist x = none →
      Sem (.fetchUpdate s g f) x x (.err x)
  | updatePanic {s g f x} : g = .release ∨ g = .acqRel → Sem (.fetchUpdate s g f) x x .panic

/-- A shared boolean. -/
def spec : Spec Bool BOp (Res Bool) where
  sem := Sem

end Verif.Bool
