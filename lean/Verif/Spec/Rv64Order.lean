import Verif.Spec.PpcOrder
/-!
# Specification: ordering on RISC-V

The part of the RVWMO memory model that concerns one thread: preserved program order by fences, acquire
annotations and release annotations (the Unprivileged ISA manual, "RVWMO Memory Consistency Model",
rules 4, 5 and 6).  The other rules, which only add order, are left out.
-/
set_option autoImplicit false
namespace Verif.Rv64
open Verif.Wide

/-- Events of a thread in program order. -/
inductive Ev where
  /-- an access that reads, writes, or (an atomic memory operation) both at once, with its annotations -/
  | acc (rd wr aq rl : Bool)
  /-- `fence`, with its predecessor set (reads, writes) and successor set -/
  | fence (pr pw sr sw : Bool)
deriving DecidableEq

/-- `fence rw,rw` -/
def Ev.full : Ev := .fence true true true true

/-- The `i`-th event is an access that is in the set given (reads, writes). -/
def MemIn (t : List Ev) (r w : Bool) (i : Nat) : Prop :=
  ∃ r' w' a l, t[i]? = some (Ev.acc r' w' a l) ∧ ((r = true ∧ r' = true) ∨ (w = true ∧ w' = true))

/-- The `i`-th event is an access. -/
def Mem (t : List Ev) (i : Nat) : Prop := MemIn t true true i

/-- The `i`-th event precedes the `j`-th in the global memory order: there is a fence between them that
is for accesses like them, or the first is an acquire, or the second is a release. -/
inductive Before (t : List Ev) : Nat → Nat → Prop where
  | fence {i k j pr pw sr sw} (hi : MemIn t pr pw i) (hj : MemIn t sr sw j) (h1 : i < k) (h2 : k < j)
      (h : t[k]? = some (Ev.fence pr pw sr sw)) : Before t i j
  | aq {i j r w l} (hi : t[i]? = some (Ev.acc r w true l)) (hj : Mem t j) (h : i < j) : Before t i j
  | rl {i j r w a} (hi : Mem t i) (hj : t[j]? = some (Ev.acc r w a true)) (h : i < j) : Before t i j

/-- Performed in order. -/
inductive Ordered (t : List Ev) : Nat → Nat → Prop where
  | one {i j} (h : Before t i j) : Ordered t i j
  | trans {i j k} (h : Ordered t i j) (h' : Ordered t j k) : Ordered t i k

/-- The `i`-th event reads. -/
def Read (t : List Ev) (i : Nat) : Prop := ∃ w a l, t[i]? = some (Ev.acc true w a l)

/-- The `i`-th event writes. -/
def Write (t : List Ev) (i : Nat) : Prop := ∃ r a l, t[i]? = some (Ev.acc r true a l)

/-- The `i`-th event is the last read. -/
def LastRead (t : List Ev) (i : Nat) : Prop := Read t i ∧ ∀ j, Read t j → j ≤ i

/-- The `i`-th event is the last access. -/
def LastMem (t : List Ev) (i : Nat) : Prop := Mem t i ∧ ∀ j, Mem t j → j ≤ i

/-- The events of an operation are an acquire operation: whatever is before and after, its last read is
ordered before everything after. -/
def IsAcquire (t : List Ev) : Prop :=
  (∃ i, LastRead t i) ∧ ∀ pre post i j, LastRead t i → pre.length + t.length ≤ j →
    Mem (pre ++ t ++ post) j → Ordered (pre ++ t ++ post) (pre.length + i) j

/-- A release operation: everything before is ordered before each of its writes. -/
def IsRelease (t : List Ev) : Prop :=
  ∀ pre post i j, Write t j → i < pre.length → Mem (pre ++ t ++ post) i →
    Ordered (pre ++ t ++ post) i (pre.length + j)

/-- Two operations of a thread, the first before the second with anything between, are kept in order:
every access of the first before every access of the second. -/
def KeptInOrder (t u : List Ev) : Prop :=
  ∀ pre mid post i j, Mem t i → Mem u j →
    Ordered (pre ++ t ++ mid ++ u ++ post) (pre.length + i)
      (pre.length + t.length + mid.length + j)

/-- Everything the thread did before is ordered before the operation's last access. -/
def AfterEverything (t : List Ev) : Prop :=
  (∃ i, LastMem t i) ∧ ∀ pre post i j, LastMem t j → i < pre.length → Mem (pre ++ t ++ post) i →
    Ordered (pre ++ t ++ post) i (pre.length + j)

/-- The orderings ask for sequential consistency when the result is `r`: a compare-exchange that failed
need only respect the failure ordering. -/
def AsksSeqCst {n : Nat} (b : WOp n) (o f : MemOrd) (r : Res (BitVec n)) : Prop :=
  match b with
  | .cas _ _ | .casWeak _ _ => f = .seqCst ∨ (o = .seqCst ∧ ∃ x, r = .ok x)
  | _ => o = .seqCst

end Verif.Rv64
