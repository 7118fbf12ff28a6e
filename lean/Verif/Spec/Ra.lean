import Verif.Spec.Tso
import Mathlib.Logic.Relation
/-!
# Specification: release/acquire consistency with sequentially consistent fences

The axiomatic release/acquire model (the fragment of C++11 in which every store is `Release`, every load `Acquire`, every
read-modify-write `AcqRel`): there are a reads-from relation and a modification order such that happens-before, the
transitive closure of program order and reads-from, has no cycles and respects them. `SeqCst` operations and fences are in one
total order as well (operations at the same place may be put in any order), with the guarantees C++20 gives for it.
Nothing in this file models code.
-/
set_option autoImplicit false
namespace Verif.Tso
open Verif.Object

variable {K V O R : Type}

/-- The operation number `e.2` of thread `e.1`, in program order. -/
abbrev Event := Tid × Nat

def Cls.reads : Cls V → Bool
  | .load | .rmw => true
  | _ => false

def Cls.writes : Cls V → Bool
  | .store _ _ | .rmw => true
  | _ => false

/-- Everything but a store that is not waited for. (Every operation that is `SeqCst`, and on this processor also the others.) -/
def Cls.firm : Cls V → Bool
  | .store _ w => w
  | _ => true

/-- `e` is one of the operations `D` of the threads, and of a class `p`. -/
def Is (cls : O → Cls V) (D : Tid → List (Act (K × O) R)) (p : Cls V → Bool) (e : Event) : Prop :=
  ∃ a, (D e.1)[e.2]? = some a ∧ p (cls a.op.2) = true

/-- … and on the object `k`. -/
def IsOn (cls : O → Cls V) (D : Tid → List (Act (K × O) R)) (p : Cls V → Bool) (e : Event) (k : K) : Prop :=
  ∃ a, (D e.1)[e.2]? = some a ∧ p (cls a.op.2) = true ∧ a.op.1 = k

/-- Program order. -/
def Po (D : Tid → List (Act (K × O) R)) (e e' : Event) : Prop := e.1 = e'.1 ∧ e.2 < e'.2 ∧ e'.2 < (D e'.1).length

/-- Happens before: program order, and from a write to the operations that read it. -/
def Hb (cls : O → Cls V) (D : Tid → List (Act (K × O) R)) (rf : Event → Option Event) : Event → Event → Prop :=
  Relation.TransGen fun e e' => Po D e e' ∨ (rf e' = some e ∧ Is cls D Cls.reads e')

/-- The value an operation on `k` reads: that of the write it reads from, otherwise the initial one. -/
def source (m : K → V) (rf : Event → Option Event) (val : Event → V) (e : Event) (k : K) : V :=
  match rf e with
  | some w => val w
  | none => m k

/-- `rf`: reads from; `mo`: place in the modification order; `val`: value written; `sc`: place in the order of the
`SeqCst` operations. -/
structure RaOrder (S : Spec V O R) (cls : O → Cls V) (m : K → V) (D : Tid → List (Act (K × O) R))
    (rf : Event → Option Event) (mo : Event → Nat) (val : Event → V) (sc : Event → Nat) : Prop where
  /-- operations return what the values read and written require -/
  load : ∀ (e : Event) a, (D e.1)[e.2]? = some a → cls a.op.2 = .load →
    S.sem a.op.2 (source m rf val e a.op.1) (source m rf val e a.op.1) a.r
  store : ∀ (e : Event) a v w, (D e.1)[e.2]? = some a → cls a.op.2 = .store v w → val e = v ∧ ∀ x, S.sem a.op.2 x v a.r
  rmw : ∀ (e : Event) a, (D e.1)[e.2]? = some a → cls a.op.2 = .rmw →
    S.sem a.op.2 (source m rf val e a.op.1) (val e) a.r
  /-- what is read has been written, to the same object -/
  rf_write : ∀ (e w : Event) k, IsOn cls D Cls.reads e k → rf e = some w → IsOn cls D Cls.writes w k
  /-- the modification order is an order -/
  total : ∀ (e e' : Event), Is cls D Cls.writes e → Is cls D Cls.writes e' → mo e = mo e' → e = e'
  acyclic : ∀ e, ¬ Hb cls D rf e e
  /-- writes to an object happen in modification order -/
  coww : ∀ (w w' : Event) k, IsOn cls D Cls.writes w k → IsOn cls D Cls.writes w' k → Hb cls D rf w w' → mo w < mo w'
  /-- an operation reads a write that happened before it, or a newer one -/
  cowr : ∀ (w e : Event) k, IsOn cls D Cls.writes w k → IsOn cls D Cls.reads e k → Hb cls D rf w e →
    ∃ w', rf e = some w' ∧ mo w ≤ mo w'
  /-- a read-modify-write reads the write immediately before it -/
  atomic : ∀ (e : Event) k, IsOn cls D (fun c => c.reads && c.writes) e k → (∀ w, rf e = some w → mo w < mo e) ∧
    ∀ w, IsOn cls D Cls.writes w k → mo w < mo e → ∃ w', rf e = some w' ∧ mo w ≤ mo w'
  /-- the order `sc` agrees with happens-before -/
  sc_hb : ∀ f f', Is cls D Cls.firm f → Is cls D Cls.firm f' → Hb cls D rf f f' → sc f ≤ sc f'
  /-- an operation at or after (in happens-before) a place in `sc` sees the writes at or before an earlier place -/
  sc_rd : ∀ (w f f' e : Event) k, IsOn cls D Cls.writes w k → (w = f ∨ Hb cls D rf w f) → Is cls D Cls.waits f →
    Is cls D Cls.firm f' → sc f ≤ sc f' → (f' = e ∨ Hb cls D rf f' e) → IsOn cls D Cls.reads e k → w ≠ e →
    ∃ w', rf e = some w' ∧ mo w ≤ mo w'
  /-- … and overwrites them -/
  sc_ww : ∀ (w f f' w' : Event) k, IsOn cls D Cls.writes w k → (w = f ∨ Hb cls D rf w f) → Is cls D Cls.waits f →
    Is cls D Cls.firm f' → sc f ≤ sc f' → (f' = w' ∨ Hb cls D rf f' w') → IsOn cls D Cls.writes w' k → w ≠ w' →
    mo w < mo w'

/-- The history has the release/acquire guarantees. Every operation that has returned is among `D`; one that has not may be. -/
def RaConsistent (S : Spec V O R) (cls : O → Cls V) (m : K → V) (h : List (Object.Ev (K × O) R)) : Prop :=
  ∃ D rf mo val sc, RaOrder S cls m D rf mo val sc ∧
    ∀ t, (D t).map Act.op <+: calls t h ∧ results t h <+: (D t).map Act.r

end Verif.Tso
