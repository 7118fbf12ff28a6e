import Mathlib.Algebra.Order.Ring.NNRat
import Mathlib.Algebra.Order.Field.Basic
import Mathlib.Data.NNRat.Lemmas
import Mathlib.Data.Nat.Cast.Order.Ring
import Mathlib.Logic.Function.Basic
import Verif.Spec.Atomic
/-!
# A weak memory: C11-style views

Nothing in this file models the crate; it is the memory both the lock-based code
(`WM/Code.lean`) and the specification (`Spec/WeakMemory.lean`) run on.

It is the promise-free view machine for the C/C++20 (and Rust) memory model with relaxed, release,
acquire, acquire-release accesses and release / acquire / sequentially consistent fences ("ORC11"
and the certification-free part of the promising semantics).  A location is the set of all writes
ever made to it, ordered by rational timestamps (modification order); a thread may read any write
that its view does not know to be overwritten; a write may be put at any free place later than what
the thread knows (so modification order need not be the order in time); a read-modify-write is put
immediately after the write it reads.  Views travel from writer to reader exactly as
release/acquire accesses, fences and release sequences (C++20: read-modify-writes only) say.

Assumption: executions in which a read returns a value from a write that happens "later in time"
(a cycle of program order and reads-from) are excluded, as in RC11.
-/
set_option autoImplicit false
namespace Verif.WM

/-- Timestamps. -/
abbrev Ts := ℚ≥0

/-- A view: for each location, a timestamp below which writes are known to be overwritten. -/
abbrev View (L : Type) := L → Ts

/-- A write in memory: it occupies the interval `(frm, ts]` of modification order. -/
structure Msg (L X : Type) where
  frm : Ts
  ts : Ts
  val : X
  view : View L

/-- What a thread knows: `cur` for its accesses, `acq` what an acquire fence would add, `rel` what
was known at its last release fence. -/
structure TV (L : Type) where
  cur : View L
  acq : View L
  rel : View L

variable {L : Type} [DecidableEq L] {X : Type}

/-- The view that knows only the write at `t` to `l`. -/
def single (l : L) (t : Ts) : View L := Function.update ⊥ l t

/-- Does the ordering include acquire? A `SeqCst` access is acquire and release; its sequential
consistency is expressed by fences around it. -/
def acqs : MemOrd → Bool
  | .acquire | .acqRel | .seqCst => true
  | _ => false

/-- Does the ordering include release? -/
def rels : MemOrd → Bool
  | .release | .acqRel | .seqCst => true
  | _ => false

/-- Views after reading `m`. -/
def TV.read (v : TV L) (l : L) (o : MemOrd) (m : Msg L X) : TV L where
  cur := v.cur ⊔ single l m.ts ⊔ (if acqs o then m.view else ⊥)
  acq := v.acq ⊔ single l m.ts ⊔ m.view
  rel := v.rel

/-- Views after writing at `t`. -/
def TV.write (v : TV L) (l : L) (t : Ts) : TV L where
  cur := v.cur ⊔ single l t
  acq := v.acq ⊔ single l t
  rel := v.rel

/-- The view a write carries: everything known if it is a release write, otherwise what was known at
the last release fence. -/
def TV.msgView (v : TV L) (l : L) (t : Ts) (o : MemOrd) : View L :=
  (if rels o then v.cur else v.rel) ⊔ single l t

/-- Release and acquire fences. -/
def TV.fence (v : TV L) (o : MemOrd) : TV L :=
  let cur := if acqs o then v.acq else v.cur
  { cur := cur, acq := v.acq, rel := if rels o then cur else v.rel }

/-- A sequentially consistent fence exchanges knowledge with the global view `S`. -/
def TV.scFence (v : TV L) (S : View L) : TV L :=
  { cur := v.acq ⊔ S, acq := v.acq ⊔ S, rel := v.acq ⊔ S }

/-- The place `(f, t]` is free. -/
def Fresh (ms : List (Msg L X)) (f t : Ts) : Prop :=
  f < t ∧ ∀ m ∈ ms, t ≤ m.frm ∨ m.ts ≤ f

/-- `Load ms v l o x v'`: a load with ordering `o` of location `l`, whose writes are `ms`, may return
`x`. -/
inductive Load (ms : List (Msg L X)) (v : TV L) (l : L) (o : MemOrd) : X → TV L → Prop where
  | mk (m : Msg L X) (hm : m ∈ ms) (hv : v.cur l ≤ m.ts) : Load ms v l o m.val (v.read l o m)

/-- A store of `x`. -/
inductive Store (ms : List (Msg L X)) (v : TV L) (l : L) (o : MemOrd) (x : X) :
    List (Msg L X) → TV L → Prop where
  | mk (f t : Ts) (hv : v.cur l < t) (hf : Fresh ms f t) :
      Store ms v l o x (⟨f, t, x, v.msgView l t o⟩ :: ms) (v.write l t)

/-- A read-modify-write that reads `x` and writes `g x`. -/
inductive Rmw (ms : List (Msg L X)) (v : TV L) (l : L) (o : MemOrd) (g : X → X) :
    X → List (Msg L X) → TV L → Prop where
  | mk (m : Msg L X) (t : Ts) (hm : m ∈ ms) (hv : v.cur l ≤ m.ts) (hf : Fresh ms m.ts t) :
      Rmw ms v l o g m.val
        (⟨m.ts, t, g m.val, (v.read l o m).msgView l t o ⊔ m.view⟩ :: ms)
        ((v.read l o m).write l t)

/-- A fence: new thread views and new global view. -/
def fence (v : TV L) (S : View L) : MemOrd → TV L × View L
  | .seqCst => (v.scFence S, v.acq ⊔ S)
  | o => (v.fence o, S)

/-- The initial write to a location, known to everybody. -/
def initMsgs (x : X) : List (Msg L X) := [⟨0, 0, x, ⊥⟩]

def TV.init : TV L := ⟨⊥, ⊥, ⊥⟩

/-- What a client program may do with its own (native) locations. -/
inductive CAct (X : Type) where
  | load (a : Nat) (o : MemOrd)
  | store (a : Nat) (x : X) (o : MemOrd)
  | rmw (a : Nat) (g : X → X) (o : MemOrd)
  | fence (o : MemOrd)

/-- The observable events: calls of and returns from the atomic operations under study, and the
client's own accesses with the values they returned. -/
inductive Ev (V X : Type) where
  | inv (t : Tid) (o : Obj) (op : Op V)
  | ret (t : Tid) (r : Res V)
  | client (t : Tid) (a : CAct X) (r : Option X)

/-- A client access.  `mx a` are the writes to the client's variable `a`, `loc a` its location. -/
inductive Client (loc : Nat → L) (S : View L) (mx : Nat → List (Msg L X)) (v : TV L) :
    CAct X → Option X → (Nat → List (Msg L X)) → TV L → View L → Prop where
  | load (a o x v') (h : Load (mx a) v (loc a) o x v') :
      Client loc S mx v (.load a o) (some x) mx v' S
  | store (a o x ms v') (h : Store (mx a) v (loc a) o x ms v') :
      Client loc S mx v (.store a x o) none (Function.update mx a ms) v' S
  | rmw (a g o x ms v') (h : Rmw (mx a) v (loc a) o g x ms v') :
      Client loc S mx v (.rmw a g o) (some x) (Function.update mx a ms) v' S
  | fence (o) : Client loc S mx v (.fence o) none mx (fence v S o).1 (fence v S o).2

end Verif.WM
