import Verif.Spec.Wide
/-!
# Specification: ordering on AArch64

Program order and the "barrier-ordered-before" relation of the Arm memory model
(`bob` of `aarch64.cat`), on the events of one thread in program order.
-/
set_option autoImplicit false
namespace Verif.Arm
open Verif.Wide

/-- How a read acquires: not at all, Load-AcquirePC (`LDIAPP`), Load-Acquire. -/
inductive Acq where
  | plain | pc | full
deriving DecidableEq

/-- Events of a thread. `amo`: part of one read-modify-write instruction (not a store-exclusive). -/
inductive Ev where
  | rd (a : Acq) (amo : Bool)
  | wr (rel : Bool) (amo : Bool)
  /-- `DMB ISH` -/
  | full
  /-- `DMB ISHLD` -/
  | ld
deriving DecidableEq

/-- Reads. -/
def Ev.isRd : Ev → Bool
  | .rd _ _ => true
  | _ => false

/-- Writes. -/
def Ev.isWr : Ev → Bool
  | .wr _ _ => true
  | _ => false

/-- The `i`-th event is a read or a write. -/
def Mem (t : List Ev) (i : Nat) : Prop := ∃ e, t[i]? = some e ∧ (e.isRd = true ∨ e.isWr = true)

/-- `bob`: the `i`-th event is ordered before the `j`-th, by a full barrier between them, a load
barrier after a read, an acquire, a release, a release followed by an acquire, or a
read-modify-write instruction between them that is both. -/
inductive Bob (t : List Ev) : Nat → Nat → Prop where
  | full {i k j} (hi : Mem t i) (hj : Mem t j) (h1 : i < k) (h2 : k < j) (h : t[k]? = some .full) : Bob t i j
  | ld {i k j a m} (hi : t[i]? = some (.rd a m)) (hj : Mem t j) (h1 : i < k) (h2 : k < j)
      (h : t[k]? = some .ld) : Bob t i j
  | acq {i j a m} (hi : t[i]? = some (.rd a m)) (ha : a ≠ .plain) (hj : Mem t j) (h : i < j) : Bob t i j
  | rel {i j m} (hi : Mem t i) (hj : t[j]? = some (.wr true m)) (h : i < j) : Bob t i j
  | relAcq {i j m m'} (hi : t[i]? = some (.wr true m)) (hj : t[j]? = some (.rd .full m')) (h : i < j) :
      Bob t i j
  | amo {i k j} (hi : Mem t i) (hj : Mem t j) (h1 : i < k) (h2 : k + 1 < j)
      (h : t[k]? = some (.rd .full true)) (h' : t[k + 1]? = some (.wr true true)) : Bob t i j

/-- Ordered before. -/
inductive Ordered (t : List Ev) : Nat → Nat → Prop where
  | one {i j} (h : Bob t i j) : Ordered t i j
  | trans {i j k} (h : Ordered t i j) (h' : Ordered t j k) : Ordered t i k

/-- The `i`-th event is the last read. -/
def LastRead (t : List Ev) (i : Nat) : Prop :=
  (∃ a m, t[i]? = some (.rd a m)) ∧ ∀ j a m, t[j]? = some (.rd a m) → j ≤ i

/-- The `i`-th event is a write. -/
def Write (t : List Ev) (i : Nat) : Prop := ∃ r m, t[i]? = some (.wr r m)

/-- The events of an operation are an acquire operation: whatever is before and after, its last read is
ordered before everything after. -/
def IsAcquire (t : List Ev) : Prop :=
  (∃ i, LastRead t i) ∧ ∀ pre post i j, LastRead t i → pre.length + t.length ≤ j →
    Mem (pre ++ t ++ post) j → Ordered (pre ++ t ++ post) (pre.length + i) j

/-- A release operation: everything before is ordered before each of its writes. -/
def IsRelease (t : List Ev) : Prop :=
  ∀ pre post i j, Write t j → i < pre.length → Mem (pre ++ t ++ post) i →
    Ordered (pre ++ t ++ post) i (pre.length + j)

/-- Two operations of a thread, the first before the second with anything between, are kept in order:
last read and writes of the first before last read and writes of the second. -/
def KeptInOrder (t u : List Ev) : Prop :=
  ∀ pre mid post i j, (LastRead t i ∨ Write t i) → (LastRead u j ∨ Write u j) →
    Ordered (pre ++ t ++ mid ++ u ++ post) (pre.length + i)
      (pre.length + t.length + mid.length + j)

/-- `Acquire`, `AcqRel`, `SeqCst`. -/
def Acquiring (o : MemOrd) : Prop := o = .acquire ∨ o = .acqRel ∨ o = .seqCst

/-- `Release`, `AcqRel`, `SeqCst`. -/
def Releasing (o : MemOrd) : Prop := o = .release ∨ o = .acqRel ∨ o = .seqCst

/-- The orderings ask for an acquire operation (on success or on failure). -/
def AsksAcquire {n : Nat} (b : WOp n) (o f : MemOrd) : Prop :=
  match b with
  | .cas _ _ | .casWeak _ _ => Acquiring o ∨ Acquiring f
  | .store _ => False
  | _ => Acquiring o

/-- They ask for a release operation. -/
def AsksRelease {n : Nat} (b : WOp n) (o : MemOrd) : Prop :=
  match b with
  | .load => False
  | _ => Releasing o

/-- They ask for a sequentially consistent operation (on success or on failure). -/
def AsksSeqCst {n : Nat} (b : WOp n) (o f : MemOrd) : Prop :=
  match b with
  | .cas _ _ | .casWeak _ _ => o = .seqCst ∨ f = .seqCst
  | _ => o = .seqCst

end Verif.Arm
