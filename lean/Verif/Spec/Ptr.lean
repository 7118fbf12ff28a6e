import Verif.Ptr.Code
/-!
# Specification: a shared pointer to `T`, as an address
-/
namespace Verif.Ptr
open Verif.Object Verif.Lf Verif.Int

variable {w : Nat}

/-- `y` is the address `d` bytes above `x` (modulo the address space). -/
def Above (x : BitVec w) (d : Nat) (y : BitVec w) : Prop := y.toNat = (x.toNat + d) % 2 ^ w

/-- May `op` take the pointer from address `x` to address `y` and return `r`?
`size` is the size of the pointee. -/
def Sem (size : Nat) : POp w → BitVec w → BitVec w → IRes w → Prop
  | .load o, x, y, r => y = x ∧
      r = if o = .release ∨ o = .acqRel then .res .panic else .res (.val x)
  | .store v o, x, y, r =>
      if o = .acquire ∨ o = .acqRel then y = x ∧ r = .res .panic else y = v ∧ r = .res .unit
  | .swap v _, x, y, r => y = v ∧ r = .res (.val x)
  | .compareExchange c n _ f, x, y, r =>
      if f = .release ∨ f = .acqRel then y = x ∧ r = .res .panic
      else (x = c ∧ y = n ∧ r = .res (.ok x)) ∨ (x ≠ c ∧ y = x ∧ r = .res (.err x))
  | .compareExchangeWeak c n _ f, x, y, r =>
      if f = .release ∨ f = .acqRel then y = x ∧ r = .res .panic
      else (x = c ∧ y = n ∧ r = .res (.ok x)) ∨ (y = x ∧ r = .res (.err x))
  | .fetchUpdate _ g f, x, y, r =>
      if g = .release ∨ g = .acqRel then y = x ∧ r = .res .panic
      else ∃ hist, (f hist x = some y ∧ r = .res (.ok x)) ∨
        (f hist x = none ∧ y = x ∧ r = .res (.err x))
  | .fetchPtrAdd n _, x, y, r => Above x (n.toNat * size) y ∧ r = .res (.val x)
  | .fetchPtrSub n _, x, y, r => Above y (n.toNat * size) x ∧ r = .res (.val x)
  | .fetchByteAdd n _, x, y, r => Above x n.toNat y ∧ r = .res (.val x)
  | .fetchByteSub n _, x, y, r => Above y n.toNat x ∧ r = .res (.val x)
  | .fetchOr v _, x, y, r =>
      (∀ i < w, y.getLsbD i = (x.getLsbD i || v.getLsbD i)) ∧ r = .res (.val x)
  | .fetchAnd v _, x, y, r =>
      (∀ i < w, y.getLsbD i = (x.getLsbD i && v.getLsbD i)) ∧ r = .res (.val x)
  | .fetchXor v _, x, y, r =>
      (∀ i < w, y.getLsbD i = (x.getLsbD i != v.getLsbD i)) ∧ r = .res (.val x)
  | .bit b n _, x, y, r => b.Post (n.toNat % w) x y ∧ r = .flag (x.getLsbD (n.toNat % w))

end Verif.Ptr
