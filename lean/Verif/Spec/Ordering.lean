import Verif.Ordering
namespace Verif

/-! ## Specification: what an ordering guarantees -/

/-- The guarantees an ordering can give. -/
inductive Guarantee where
  | acquire | release | total
deriving DecidableEq

/-- Which ordering gives which guarantee (the documentation of `core::sync::atomic::Ordering`). -/
def MemOrd.gives : MemOrd → Guarantee → Prop
  | .relaxed, _ => False
  | .acquire, g => g = .acquire
  | .release, g => g = .release
  | .acqRel, g => g = .acquire ∨ g = .release
  | .seqCst, _ => True

/-- `a` is at least as strong as `b`. -/
def MemOrd.AtLeast (a b : MemOrd) : Prop := ∀ g, b.gives g → a.gives g

end Verif
