import Verif.Float.Code
import Verif.Spec.Int
/-!
# Specification: a shared float, as its bit pattern
-/
namespace Verif.Float
open Verif.Object Verif.Lf Verif.Int

variable {w : Nat}

/-- May `op` take the bit pattern from `x` to `y` and return `r`? -/
def Sem (signed : Bool) {A : Arith w} {f : FBackend} : FOp A f → BitVec w → BitVec w → IRes w → Prop
  | .load o, x, y, r => y = x ∧
      r = if o = .release ∨ o = .acqRel then .res .panic else .res (.val x)
  | .store v o, x, y, r =>
      if o = .acquire ∨ o = .acqRel then y = x ∧ r = .res .panic else y = v ∧ r = .res .unit
  | .swap v _, x, y, r => y = v ∧ r = .res (.val x)
  | .compareExchange c n _ g, x, y, r =>
      if g = .release ∨ g = .acqRel then y = x ∧ r = .res .panic
      else (x = c ∧ y = n ∧ r = .res (.ok x)) ∨ (x ≠ c ∧ y = x ∧ r = .res (.err x))
  | .compareExchangeWeak c n _ g, x, y, r =>
      if g = .release ∨ g = .acqRel then y = x ∧ r = .res .panic
      else (x = c ∧ y = n ∧ r = .res (.ok x)) ∨ (y = x ∧ r = .res (.err x))
  | .fetchUpdate _ g c, x, y, r =>
      if g = .release ∨ g = .acqRel then y = x ∧ r = .res .panic
      else ∃ hist, (c hist x = some y ∧ r = .res (.ok x)) ∨
        (c hist x = none ∧ y = x ∧ r = .res (.err x))
  /- exactly the sign bit is flipped -/
  | .fetchNeg _, x, y, r =>
      (∀ i < w, y.getLsbD i = if i = w - 1 then !x.getLsbD i else x.getLsbD i) ∧ r = .res (.val x)
  /- exactly the sign bit is cleared -/
  | .fetchAbs _, x, y, r =>
      (∀ i < w, y.getLsbD i = if i = w - 1 then false else x.getLsbD i) ∧ r = .res (.val x)
  /- a possible float result of the replaced value and the argument -/
  | .arith b v _ _, x, y, r => A.res b x v y ∧ r = .res (.val x)
  | .bits op, x, y, r => Int.Sem signed op x y r

end Verif.Float
