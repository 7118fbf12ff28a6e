import Verif.Spec.Bytes
import Verif.Spec.Bool
import Mathlib.Logic.Function.Basic
/-!
# Specification: small atomics packed next to each other

Objects of one or two bytes lie in memory without overlap, several in one machine word.  Whoever uses them sees
values that have nothing to do with each other.  Only the names of the operations come from the model.
-/
set_option autoImplicit false
namespace Verif.Rv
open Verif.Object

/-- Where the objects `K` are: sizes in bytes and addresses, aligned, no byte belonging to two of them. -/
structure Layout (L : Nat) (K : Type) where
  sz : K → Nat
  addr : K → BitVec L
  size : ∀ k, sz k = 1 ∨ sz k = 2
  align : ∀ k, (addr k).toNat % sz k = 0
  apart : ∀ k k', k ≠ k' → ∀ i < sz k, ∀ j < sz k', byteAddr (addr k) i ≠ byteAddr (addr k') j

variable {L : Nat} {K B : Type} [DecidableEq K] [DecidableEq B]

/-- Independent values: an operation acts on one of them as on a variable of its own. -/
def Layout.values (lay : Layout L K) :
    Spec (∀ k, BitVec (8 * lay.sz k)) (Σ k, SOp (lay.sz k)) (Σ sz, SRes sz) where
  sem op c c' r := ∃ y r0, op.2.Post (c op.1) y r0 ∧ c' = Function.update c op.1 y ∧ r = ⟨lay.sz op.1, r0⟩

/-- Booleans beside other objects: `flag b` is the address of the byte of boolean `b`. -/
structure Flags (L : Nat) (B K : Type) extends Layout L K where
  flag : B → BitVec L
  distinct : ∀ b b', flag b = flag b' → b = b'
  clear : ∀ b k, ∀ j < sz k, flag b ≠ byteAddr (addr k) j

/-- Two objects used together: every operation is one of the first or one of the second. -/
def beside {C D O P R Q : Type} (S : Object.Spec C O R) (T : Object.Spec D P Q) :
    Object.Spec (C × D) (O ⊕ P) (R ⊕ Q) where
  sem op c c' r := match op with
    | .inl o => ∃ r0, S.sem o c.1 c'.1 r0 ∧ c'.2 = c.2 ∧ r = .inl r0
    | .inr o => ∃ r0, T.sem o c.2 c'.2 r0 ∧ c'.1 = c.1 ∧ r = .inr r0

/-- Independent booleans and independent values. -/
def Flags.values (lay : Flags L B K) :
    Spec ((B → Bool) × ∀ k, BitVec (8 * lay.sz k)) ((B × Bool.BOp) ⊕ Σ k, SOp (lay.sz k))
      (Res Bool ⊕ Σ sz, SRes sz) :=
  beside (Bool.spec.many (K := B)) lay.toLayout.values

end Verif.Rv
