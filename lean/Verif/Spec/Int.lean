import Verif.Spec.Object
import Verif.Int.Code
/-!
# Specification: a shared integer

What each operation of an integer atomic means on a plain `w`-bit integer, in terms of the number or
the bits it denotes (only the operation names come from the model).
-/
namespace Verif.Int
open Verif.Object

/-- The number denoted by the bits. -/
def num {w : Nat} (signed : Bool) (x : BitVec w) : Int := if signed then x.toInt else x.toNat

variable {w : Nat}

/-- `y` is the result of the operation on old value `x` and argument `v`. -/
def Bin.Post (b : Bin) (x v y : BitVec w) : Prop :=
  match b with
  | .add => y.toNat = (x.toNat + v.toNat) % 2 ^ w
  | .sub => (y.toNat + v.toNat) % 2 ^ w = x.toNat
  | .and => ∀ i < w, y.getLsbD i = (x.getLsbD i && v.getLsbD i)
  | .or => ∀ i < w, y.getLsbD i = (x.getLsbD i || v.getLsbD i)
  | .xor => ∀ i < w, y.getLsbD i = (x.getLsbD i != v.getLsbD i)

def BinF.Post (signed : Bool) (b : BinF) (x v y : BitVec w) : Prop :=
  match b with
  | .nand => ∀ i < w, y.getLsbD i = !(x.getLsbD i && v.getLsbD i)
  | .max => num signed y = Max.max (num signed x) (num signed v)
  | .min => num signed y = Min.min (num signed x) (num signed v)

def Un.Post (u : Un) (x y : BitVec w) : Prop :=
  match u with
  | .not => ∀ i < w, y.getLsbD i = !x.getLsbD i
  | .neg => (x.toNat + y.toNat) % 2 ^ w = 0

/-- Bit `i` set / cleared / toggled, all other bits as before. -/
def BitOp.Post (b : BitOp) (i : Nat) (x y : BitVec w) : Prop :=
  (∀ j < w, j ≠ i → y.getLsbD j = x.getLsbD j) ∧
    match b with
    | .set => y.getLsbD i = true
    | .clear => y.getLsbD i = false
    | .toggle => y.getLsbD i = !x.getLsbD i

/-- May `op` take the integer from `x` to `y` and return `r`? -/
def Sem (signed : Bool) : IOp w → BitVec w → BitVec w → IRes w → Prop
  | .load o, x, y, r => y = x ∧
      r = if o = .release ∨ o = .acqRel then .res .panic else .res (.val x)
  | .store v o, x, y, r =>
      if o = .acquire ∨ o = .acqRel then y = x ∧ r = .res .panic else y = v ∧ r = .res .unit
  | .swap v _, x, y, r => y = v ∧ r = .res (.val x)
  | .compareExchange c n _ f, x, y, r =>
      if f = .release ∨ f = .acqRel then y = x ∧ r = .res .panic
      else (x = c ∧ y = n ∧ r = .res (.ok x)) ∨ (x ≠ c ∧ y = x ∧ r = .res (.err x))
  | .compareExchangeWeak c n _ f, x, y, r =>
      if f = .release ∨ f = .acqRel then y = x ∧ r = .res .panic
      else (x = c ∧ y = n ∧ r = .res (.ok x)) ∨ (y = x ∧ r = .res (.err x))
  | .fetchBin b v _, x, y, r => b.Post x v y ∧ r = .res (.val x)
  | .bin b v _, x, y, r => b.Post x v y ∧ r = .res .unit
  | .fetchBinF b v _, x, y, r => b.Post signed x v y ∧ r = .res (.val x)
  | .fetchUn u _, x, y, r => u.Post x y ∧ r = .res (.val x)
  | .un u _, x, y, r => u.Post x y ∧ r = .res .unit
  | .bit b n _, x, y, r => b.Post (n.toNat % w) x y ∧ r = .flag (x.getLsbD (n.toNat % w))
  | .fetchUpdate _ g f, x, y, r =>
      if g = .release ∨ g = .acqRel then y = x ∧ r = .res .panic
      else ∃ hist, (f hist x = some y ∧ r = .res (.ok x)) ∨
        (f hist x = none ∧ y = x ∧ r = .res (.err x))

/-- A shared integer. -/
def spec (signed : Bool) : Spec (BitVec w) (IOp w) (IRes w) where
  sem := Sem signed

end Verif.Int
