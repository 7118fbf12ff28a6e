import Verif.Spec.PpcOrder
/-!
# Specification: ordering on z/Architecture

The part of the memory model that concerns one thread (Principles of Operation, chapter 5, "Storage
Operand References" and "Serialization"): accesses are performed in program order, except that a store
may be performed after a later fetch unless a serialization is between them.
-/
set_option autoImplicit false
namespace Verif.S390x

/-- Events of a thread in program order. -/
inductive Ev where
  | rd
  | wr
  /-- a serialization -/
  | ser
deriving DecidableEq

/-- The `i`-th event is a read or a write. -/
def Mem (t : List Ev) (i : Nat) : Prop := t[i]? = some Ev.rd ∨ t[i]? = some Ev.wr

/-- The `i`-th event is performed before the `j`-th. -/
inductive Before (t : List Ev) : Nat → Nat → Prop where
  | order {i j} (hi : Mem t i) (hj : Mem t j) (hn : ¬ (t[i]? = some Ev.wr ∧ t[j]? = some Ev.rd)) (h : i < j) :
      Before t i j
  | ser {i k j} (hi : Mem t i) (hj : Mem t j) (h1 : i < k) (h2 : k < j) (h : t[k]? = some Ev.ser) : Before t i j

/-- Performed in order. -/
inductive Ordered (t : List Ev) : Nat → Nat → Prop where
  | one {i j} (h : Before t i j) : Ordered t i j
  | trans {i j k} (h : Ordered t i j) (h' : Ordered t j k) : Ordered t i k

/-- The `i`-th event is the last read. -/
def LastRead (t : List Ev) (i : Nat) : Prop :=
  t[i]? = some Ev.rd ∧ ∀ j, t[j]? = some Ev.rd → j ≤ i

/-- The `i`-th event is a write. -/
def Write (t : List Ev) (i : Nat) : Prop := t[i]? = some Ev.wr

/-- The events of an operation are an acquire operation: whatever is before and after, its last read is
ordered before everything after. -/
def IsAcquire (t : List Ev) : Prop :=
  (∃ i, LastRead t i) ∧ ∀ pre post i j, LastRead t i → pre.length + t.length ≤ j →
    Mem (pre ++ t ++ post) j → Ordered (pre ++ t ++ post) (pre.length + i) j

/-- A release operation: everything before is ordered before each of its writes. -/
def IsRelease (t : List Ev) : Prop :=
  ∀ pre post i j, Write t j → i < pre.length → Mem (pre ++ t ++ post) i →
    Ordered (pre ++ t ++ post) i (pre.length + j)

/-- Two operations of a thread, the first before the second with anything between, are kept in order:
every access of the first before every access of the second. -/
def KeptInOrder (t u : List Ev) : Prop :=
  ∀ pre mid post i j, Mem t i → Mem u j →
    Ordered (pre ++ t ++ mid ++ u ++ post) (pre.length + i)
      (pre.length + t.length + mid.length + j)

end Verif.S390x
