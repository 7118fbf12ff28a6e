import Verif.Ordering
/-!
# Specification of `fence`

The memory events of one thread, in program order, and which of them other threads must see in that order.
-/
set_option autoImplicit false
namespace Verif.Fence

/-- Events of one thread. `sync`: a locked instruction (x86) or a full barrier (Arm). -/
inductive Ev where
  | rd | wr | sync
deriving DecidableEq

/-- The hardware: one core that keeps program order (MSP430), x86 (a store may be delayed past later loads), or one that
keeps nothing in order but what a barrier orders. -/
inductive Hw where
  | single | x86 | barriers
deriving DecidableEq

/-- Event `j` of the thread cannot be observed before event `i`. On x86 the only pairs that are not in order are a store and a
later load without a locked instruction in between (Intel SDM, vol. 3, 10.2.2; x86-TSO). -/
def Hw.Ordered (w : Hw) (t : List Ev) (i j : Nat) : Prop :=
  i < j ∧ j < t.length ∧ match w with
  | .single => True
  | .x86 => ¬ (t[i]? = some .wr ∧ t[j]? = some .rd) ∨ ∃ k : Nat, i < k ∧ k < j ∧ t[k]? = some .sync
  | .barriers => ∃ k : Nat, i ≤ k ∧ k ≤ j ∧ t[k]? = some .sync

/-- What a fence of ordering `o` is for (C++11 29.8; `core::sync::atomic::fence`): an acquire fence keeps earlier loads
before whatever follows, a release fence keeps whatever precedes before later stores, a sequentially consistent one keeps
everything before everything. -/
def Needs (o : MemOrd) (e f : Ev) : Prop :=
  match o with
  | .relaxed => False
  | .acquire => e = .rd
  | .release => f = .wr
  | .acqRel => e = .rd ∨ f = .wr
  | .seqCst => True

/-- `fence o`, compiled to the events `f`, does what it is for, whatever the thread does before and after. -/
def Works (w : Hw) (o : MemOrd) (f : List Ev) : Prop :=
  ∀ (pre post : List Ev) (i j : Nat) (a b : Ev), i < pre.length → pre.length + f.length ≤ j →
    pre[i]? = some a → (pre ++ f ++ post)[j]? = some b → Needs o a b → w.Ordered (pre ++ f ++ post) i j

end Verif.Fence
