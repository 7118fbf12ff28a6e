import Verif.Spec.ArmOrder
/-!
# Specification: ordering on Power

The part of the Power memory model that concerns one thread: which of its accesses are performed in
program order, because of `sync`, `lwsync`, or a branch that depends on a read followed by `isync`
(Power ISA, Book II, 1.7 and appendix B; `ppc.cat`).  Cumulativity of the barriers is not described.
-/
set_option autoImplicit false
namespace Verif.Ppc
open Verif.Wide
open Verif.Arm (Acquiring)

/-- Events of a thread in program order. -/
inductive Ev where
  | rd
  | wr
  | sync
  | lwsync
  | isync
  /-- A conditional branch. `dep`: its condition was computed from what the most recent read returned, or
  is the outcome of the store-conditional that belongs to that read. -/
  | br (dep : Bool)
deriving DecidableEq

/-- The `i`-th event is a read or a write. -/
def Mem (t : List Ev) (i : Nat) : Prop := t[i]? = some Ev.rd ∨ t[i]? = some Ev.wr

/-- The `i`-th event is performed before the `j`-th: there is a `sync` between them; or an `lwsync`, and
they are not a write followed by a read; or the `i`-th is a read, a branch depending on it follows and
then an `isync`. -/
inductive Before (t : List Ev) : Nat → Nat → Prop where
  | sync {i k j} (hi : Mem t i) (hj : Mem t j) (h1 : i < k) (h2 : k < j) (h : t[k]? = some Ev.sync) : Before t i j
  | lwsync {i k j} (hi : Mem t i) (hj : Mem t j) (hn : ¬ (t[i]? = some Ev.wr ∧ t[j]? = some Ev.rd))
      (h1 : i < k) (h2 : k < j) (h : t[k]? = some Ev.lwsync) : Before t i j
  | ctrl {i k l j} (hi : t[i]? = some Ev.rd) (hj : Mem t j) (h1 : i < k) (h2 : k < l) (h3 : l < j)
      (hb : t[k]? = some (Ev.br true)) (hn : ∀ n, i < n → n < k → t[n]? ≠ some Ev.rd)
      (h : t[l]? = some Ev.isync) : Before t i j

/-- Performed in order. -/
inductive Ordered (t : List Ev) : Nat → Nat → Prop where
  | one {i j} (h : Before t i j) : Ordered t i j
  | trans {i j k} (h : Ordered t i j) (h' : Ordered t j k) : Ordered t i k

/-- The `i`-th event is the last read. -/
def LastRead (t : List Ev) (i : Nat) : Prop :=
  t[i]? = some Ev.rd ∧ ∀ j, t[j]? = some Ev.rd → j ≤ i

/-- The `i`-th event is a write. -/
def Write (t : List Ev) (i : Nat) : Prop := t[i]? = some Ev.wr

/-- The events of an operation are an acquire operation: whatever is before and after, its last read is
ordered before everything after. -/
def IsAcquire (t : List Ev) : Prop :=
  (∃ i, LastRead t i) ∧ ∀ pre post i j, LastRead t i → pre.length + t.length ≤ j →
    Mem (pre ++ t ++ post) j → Ordered (pre ++ t ++ post) (pre.length + i) j

/-- A release operation: everything before is ordered before each of its writes. -/
def IsRelease (t : List Ev) : Prop :=
  ∀ pre post i j, Write t j → i < pre.length → Mem (pre ++ t ++ post) i →
    Ordered (pre ++ t ++ post) i (pre.length + j)

/-- Two operations of a thread, the first before the second with anything between, are kept in order:
every access of the first before every access of the second. -/
def KeptInOrder (t u : List Ev) : Prop :=
  ∀ pre mid post i j, Mem t i → Mem u j →
    Ordered (pre ++ t ++ mid ++ u ++ post) (pre.length + i)
      (pre.length + t.length + mid.length + j)

/-- The orderings ask for an acquire operation when the result is `r`: a compare-exchange that failed
need only respect the failure ordering. -/
def AsksAcquire {n : Nat} (b : WOp n) (o f : MemOrd) (r : Res (BitVec n)) : Prop :=
  match b with
  | .cas _ _ | .casWeak _ _ => Acquiring f ∨ (Acquiring o ∧ ∃ x, r = .ok x)
  | .store _ => False
  | _ => Acquiring o

end Verif.Ppc
