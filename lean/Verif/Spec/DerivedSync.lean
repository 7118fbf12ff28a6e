import Verif.Spec.Derived
import Verif.Spec.Object
import Verif.Spec.Sync
/-!
# Specification: what the orderings of arbitrary operations promise

Vocabulary for statements about whole histories of threads that use objects with arbitrary operations
(`Spec/Derived.lean`) and their own variables.  Nothing in this file models code.
-/
set_option autoImplicit false
namespace Verif.WM.Derived
variable {W O R X : Type}

/-- Events number `i` and `k` of the history are the call of `op` on `o` by `t`, and its return with
result `r`. -/
def Called (h : List (Ev O R X)) (i k : Nat) (t : Tid) (o : Obj) (op : O) (r : R) : Prop :=
  i < k ∧ h[i]? = some (.inv t o op) ∧ h[k]? = some (.ret t r) ∧
    ∀ j, i < j → j < k → ∀ r', h[j]? ≠ some (.ret t r')

/-- The ordering that applies to a completed operation. -/
def Spec.effOrd (S : Spec W O R) (op : O) (r : R) : MemOrd :=
  match S.kind op r with
  | .read => S.fail op
  | _ => S.succ op

/-- The operation never turns a value with property `Q` into one without; if it is a plain store, it only
stores values with `Q`. -/
def Spec.Keeps (S : Spec W O R) (Q : W → Prop) (op : O) : Prop :=
  ∀ x y r, S.sem op x y r → (S.kind op r = .write → Q x → Q y) ∧ (S.kind op r = .store → Q y)

/-- All operations of the history on object `o` keep `Q`. -/
def Spec.AllKeep (S : Spec W O R) (h : List (Ev O R X)) (o : Obj) (Q : W → Prop) : Prop :=
  ∀ (i : Nat) (t : Tid) (op : O), h[i]? = some (.inv t o op) → S.Keeps Q op

/-- The operation looked at the object, and its result tells that the value found has `Q`. -/
def Spec.Found (S : Spec W O R) (op : O) (r : R) (Q : W → Prop) : Prop :=
  (S.kind op r = .read ∨ S.kind op r = .write) ∧ ∀ x y, S.sem op x y r → Q x

/-- The operation was not rejected, and its result tells that the value it left (or found, if it only reads)
has `Q`. -/
def Spec.Left (S : Spec W O R) (op : O) (r : R) (Q : W → Prop) : Prop :=
  S.kind op r ≠ .nothing ∧ ∀ x y, S.sem op x y r → Q y

/-- Every write of a thread to its variable `a` in the history is a store of `x`. -/
def OnlyStores (h : List (Ev O R X)) (a : Nat) (x : X) : Prop :=
  ∀ (n : Nat) (t : Tid) (act : CAct X) (r : Option X), h[n]? = some (.client t act r) →
    WritesVar a act → ∃ ow, act = .store a x ow

/-- Events `f` to `g` are a sequentially consistent synchronisation of thread `t`: a `SeqCst` fence of
its own, or a completed `SeqCst` operation on some object. -/
def Spec.FullFence (S : Spec W O R) (h : List (Ev O R X)) (f g : Nat) (t : Tid) : Prop :=
  (f = g ∧ h[f]? = some (.client t (.fence .seqCst) none)) ∨
  ∃ o op r, Called h f g t o op r ∧ S.effOrd op r = .seqCst ∧ S.kind op r ≠ .nothing

/-- Every operation called on an object of `P` is `SeqCst` in all its orderings. -/
def Spec.AllSeqCst (S : Spec W O R) (P : Obj → Bool) (h : List (Ev O R X)) : Prop :=
  ∀ t o op, Ev.inv t o op ∈ h → P o = true → S.succ op = .seqCst ∧ S.fail op = .seqCst

/-- The calls on objects of `P`, and their returns.  `m t` says that the call in which thread `t` is
engaged is one of them. -/
def only (P : Obj → Bool) (m : Tid → Bool) : List (Ev O R X) → List (Object.Ev (Obj × O) R)
  | [] => []
  | .inv t o op :: h =>
    if P o then .inv t (o, op) :: only P (Function.update m t true) h
    else only P (Function.update m t false) h
  | .ret t r :: h => if m t then .ret t r :: only P m h else only P m h
  | .client _ _ _ :: h => only P m h

/-- The history of the objects of `P` within `h`. -/
def history (P : Obj → Bool) (h : List (Ev O R X)) : List (Object.Ev (Obj × O) R) := only P (fun _ => false) h

/-- Plain cells with these operations. -/
def Spec.cells (S : Spec W O R) : Object.Spec (Obj → W) (Obj × O) R := Object.Spec.many ⟨S.sem⟩

/-- What the orderings of the operations on shared objects promise to the threads, in the history `h`, which
began with the values `w0` of the objects and `x0` of the variables. -/
structure Spec.Promises (S : Spec W O R) (w0 : Obj → W) (h : List (Ev O R X)) : Prop where
  /-- **Message passing.**  A value with `Q` gets into `o` only by `Release` operations of threads that have
  stored `x1` into the variable `a`.  Whoever finds a value with `Q` by an `Acquire` operation then reads `x1`
  there. -/
  messagePassing : ∀ {a : Nat} {x1 : X} {o : Obj} {Q : W → Prop}, ¬ Q (w0 o) → OnlyStores h a x1 →
    (∀ (j : Nat) (t : Tid) (op : O), h[j]? = some (.inv t o op) → S.Keeps (fun y => ¬ Q y) op ∨
      rels (S.succ op) = true ∧ ∃ l < j, ∃ ow r, h[l]? = some (.client t (.store a x1 ow) r)) →
    ∀ {i k j : Nat} {t : Tid} {op : O} {r : R}, Called h i k t o op r → acqs (S.effOrd op r) = true → S.Found op r Q →
      k < j → ∀ {ol : MemOrd} {z : Option X}, h[j]? = some (.client t (.load a ol) z) → z = some x1
  /-- **Recency.**  After an operation that left a value with `Q`, which no operation destroys, the same thread,
  or, if both are `SeqCst`, any thread, finds a value with `Q`. -/
  recency : ∀ {o : Obj} {Q : W → Prop}, S.AllKeep h o Q → ∀ {i k i' k' : Nat} {t t' : Tid} {op op' : O} {r r' : R},
    Called h i k t o op r → Called h i' k' t' o op' r' → k < i' →
    (t = t' ∨ S.effOrd op r = .seqCst ∧ S.effOrd op' r' = .seqCst) → S.Left op r Q →
    (S.kind op' r' = .read ∨ S.kind op' r' = .write) → ∃ x y, S.sem op' x y r' ∧ Q x
  /-- **`SeqCst` operations as fences.**  What a thread stored before one is read after a later one, even on
  another object. -/
  fences : ∀ {a : Nat} {x1 : X}, OnlyStores h a x1 → ∀ {m f g f' g' j : Nat} {A B : Tid} {ow ol : MemOrd}
    {r z : Option X}, h[m]? = some (.client A (.store a x1 ow) r) → m < f → S.FullFence h f g A → g < f' →
    S.FullFence h f' g' B → g' < j → h[j]? = some (.client B (.load a ol) z) → z = some x1
  /-- **One order.**  Objects on which all operations are `SeqCst` behave, all of them together, as if one
  operation after the other took effect at once, between its call and its return. -/
  seqCst : ∀ P : Obj → Bool, S.AllSeqCst P h → Object.Linearizable S.cells w0 (history P h)

end Verif.WM.Derived
