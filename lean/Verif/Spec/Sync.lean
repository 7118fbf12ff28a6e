import Verif.Spec.WeakMemory
/-!
# Specification: what the orderings of atomic operations promise

Vocabulary for statements about whole histories (`List Ev`) of threads that use atomic objects and
their own variables.  Nothing in this file models code.
-/
set_option autoImplicit false
namespace Verif.WM

variable {V X : Type}

/-- Events number `i` and `k` of the history are the call of `op` on `o` by `t`, and its return with
result `r`. -/
def Called (h : List (Ev V X)) (i k : Nat) (t : Tid) (o : Obj) (op : Op V) (r : Res V) : Prop :=
  i < k ∧ h[i]? = some (.inv t o op) ∧ h[k]? = some (.ret t r) ∧
    ∀ j, i < j → j < k → ∀ r', h[j]? ≠ some (.ret t r')

/-- The ordering that applies to a completed operation: a failed compare-exchange is a load with the
failure ordering. -/
def effOrd : Op V → Res V → MemOrd
  | .load o, _ => o
  | .store _ o, _ => o
  | .swap _ o, _ => o
  | .rmw _ o, _ => o
  | .cas _ _ s _, .ok _ => s
  | .cas _ _ _ f, _ => f

/-- The ordering of the write an operation makes, if it makes one. -/
def wrOrd : Op V → Option MemOrd
  | .load _ => none
  | .store _ o => some o
  | .swap _ o => some o
  | .rmw _ o => some o
  | .cas _ _ s _ => some s

/-- The result tells that the object's value was `y`. -/
def Reads : Res V → V → Prop
  | .val y, x => y = x
  | .ok y, x => y = x
  | .err y, x => y = x
  | _, _ => False

/-- The object's value was `x` immediately after an operation with this result. -/
def Leaves : Op V → Res V → V → Prop
  | .load _, r, x => Reads r x
  | .store v _, _, x => v = x
  | .swap v _, _, x => v = x
  | .rmw f _, r, x => ∃ y, Reads r y ∧ f y = x
  | .cas _ new _ _, .ok _, x => new = x
  | .cas _ _ _ _, r, x => Reads r x

/-- The operation never turns a value with property `Q` into one without; a store only stores values
with `Q` (it may overwrite anything). -/
def Keeps (Q : V → Prop) : Op V → Prop
  | .load _ => True
  | .store v _ => Q v
  | .swap v _ => Q v
  | .rmw f _ => ∀ y, Q y → Q (f y)
  | .cas cur new _ _ => Q cur → Q new

/-- All operations of the history on object `o` keep `Q`. -/
def AllKeep (h : List (Ev V X)) (o : Obj) (Q : V → Prop) : Prop :=
  ∀ (i : Nat) (t : Tid) (op : Op V), h[i]? = some (.inv t o op) → Keeps Q op

/-- The client access writes variable `a`. -/
def WritesVar (a : Nat) : CAct X → Prop
  | .store b _ _ => b = a
  | .rmw b _ _ => b = a
  | _ => False

/-- The values that operations called in the history could have put into object `o`. -/
inductive Written (v0 : Obj → V) (h : List (Ev V X)) (o : Obj) : V → Prop where
  | init : Written v0 h o (v0 o)
  | store (t v ord) : Ev.inv t o (.store v ord) ∈ h → Written v0 h o v
  | swap (t v ord) : Ev.inv t o (.swap v ord) ∈ h → Written v0 h o v
  | cas (t cur new s f) : Ev.inv t o (.cas cur new s f) ∈ h → Written v0 h o cur → Written v0 h o new
  | rmw (t f ord y) : Ev.inv t o (.rmw f ord) ∈ h → Written v0 h o y → Written v0 h o (f y)

/-- Events `f` to `g` are a sequentially consistent synchronisation of thread `t`: a `SeqCst` fence of
its own, or a completed `SeqCst` operation on some atomic object. -/
def FullFence (h : List (Ev V X)) (f g : Nat) (t : Tid) : Prop :=
  (f = g ∧ h[f]? = some (.client t (.fence .seqCst) none)) ∨
  ∃ o op r, Called h f g t o op r ∧ effOrd op r = .seqCst ∧ r ≠ .panic

/-- Every write of a thread to its variable `a` in the history is a store of `x`. -/
def OnlyStores (h : List (Ev V X)) (a : Nat) (x : X) : Prop :=
  ∀ (n : Nat) (t : Tid) (act : CAct X) (r : Option X), h[n]? = some (.client t act r) →
    WritesVar a act → ∃ ow, act = .store a x ow

end Verif.WM
