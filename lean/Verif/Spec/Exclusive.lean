import Verif.Spec.Object
/-!
# Specification: exclusive access to an atomic

Nothing in this file models the crate.  Besides calls through shared references, the owner of an atomic can take it out
of circulation (`get_mut`, `into_inner`, or dropping it) and put it back (the borrow ends, or `new`, `from_ptr`).
What a user expects: what is taken out is what the calls so far have left in the cell, and the calls after it is put
back find what was put.
-/
set_option autoImplicit false
namespace Verif.Excl

/-- Visible events: calls and returns; object `o` is taken out of circulation and its owner sees `v`; object `o` is put
(back) into circulation by its owner, who left `v` in it. -/
inductive Ev (E K W : Type) where
  | call (e : E)
  | take (o : K) (v : W)
  | put (o : K) (v : W)

/-- A specification of shared calls, extended with exclusive access: `get` says what an object's cell holds, `set`
changes it. -/
inductive With {S E K W : Type} (step : S → Option E → S → Prop) (get : S → K → W) (set : S → K → W → S) :
    S → Option (Ev E K W) → S → Prop where
  | tau (s s' : S) (h : step s none s') : With step get set s none s'
  | call (s s' : S) (e : E) (h : step s (some e) s') : With step get set s (some (.call e)) s'
  | take (s : S) (o : K) : With step get set s (some (.take o (get s o))) s
  | put (s : S) (o : K) (v : W) : With step get set s (some (.put o v)) (set s o v)

/-- Calls as in `Atomic`, plus exclusive access. -/
def AtomicStep {V : Type} [DecidableEq V] :
    Atomic.State V → Option (Ev (Verif.Ev V) Obj V) → Atomic.State V → Prop :=
  With Atomic.Step (fun s o => s.cell o) fun s o v => { s with cell := Function.update s.cell o v }

/-- The history of calls, returns and exclusive accesses is one of plain cells. -/
def Linearizable {V : Type} [DecidableEq V] (cells : Obj → V) (h : List (Ev (Verif.Ev V) Obj V)) : Prop :=
  ∃ s, Exec AtomicStep (Atomic.init cells) h s

/-- Calls of the operations of `S` on objects named by `K`, plus exclusive access. -/
def ObjectStep {K W O R : Type} [DecidableEq K] (S : Object.Spec W O R) :
    Object.State (K → W) (K × O) R → Option (Ev (Object.Ev (K × O) R) K W) → Object.State (K → W) (K × O) R → Prop :=
  With (Object.Step (S.many (K := K))) (fun s o => s.obj o) fun s o v => { s with obj := Function.update s.obj o v }

/-- The history of calls, returns and exclusive accesses is one of plain objects, ending in the given contents. -/
def LinearizableTo {K W O R : Type} [DecidableEq K] (S : Object.Spec W O R) (c : K → W)
    (h : List (Ev (Object.Ev (K × O) R) K W)) (c' : K → W) : Prop :=
  ∃ s, Exec (ObjectStep S) { obj := c, th := fun _ => .idle } h s ∧ s.obj = c'

/-- Calls of the operations of `S` on a set of objects named by `K` (`S` says which objects a call changes), plus exclusive access. -/
def MemStep {K W O R : Type} [DecidableEq K] (S : Object.Spec (K → W) O R) :
    Object.State (K → W) O R → Option (Ev (Object.Ev O R) K W) → Object.State (K → W) O R → Prop :=
  With (Object.Step S) (fun s o => s.obj o) fun s o v => { s with obj := Function.update s.obj o v }

/-- As `LinearizableTo`, for such a set of objects. -/
def MemLinearizableTo {K W O R : Type} [DecidableEq K] (S : Object.Spec (K → W) O R) (c : K → W)
    (h : List (Ev (Object.Ev O R) K W)) (c' : K → W) : Prop :=
  ∃ s, Exec (MemStep S) { obj := c, th := fun _ => .idle } h s ∧ s.obj = c'

end Verif.Excl
