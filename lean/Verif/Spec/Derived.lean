import Verif.Spec.WeakMemory
import Verif.Spec.Object
import Verif.Spec.Ordering
/-!
# Specification: operations of any kind as single accesses in weak memory

Nothing in this file models the crate.  `Spec/WeakMemory.lean` has the five operations of a native
atomic.  Here the operations `O` are arbitrary: each is given by its sequential meaning, by what kind
of access it is when it returns a certain result (a load, a read-modify-write, a store, or no access
at all: a rejected call), and by the orderings the caller asked for.  Every object is one location of
the weak memory of `WM/Machine.lean`, and every operation is one access to it, between two
sequentially consistent fences if the ordering is `SeqCst`.  The client is the most general one.
-/
set_option autoImplicit false
namespace Verif.WM.Derived
open Verif.WM.Native (Loc)

/-- What an operation does to memory. -/
inductive Kind where
  | nothing | read | write | store
deriving DecidableEq

/-- Operations `O` with results `R` on cells with contents `W`. -/
structure Spec (W O R : Type) where
  /-- sequential meaning: `sem op x y r`, on a cell containing `x` the operation may leave `y` and return `r` -/
  sem : O → W → W → R → Prop
  /-- the kind of access it is when it returns `r` -/
  kind : O → R → Kind
  /-- the ordering asked for when it writes -/
  succ : O → MemOrd
  /-- the ordering asked for when it only reads -/
  fail : O → MemOrd

/-- The observable events. -/
inductive Ev (O R X : Type) where
  | inv (t : Tid) (o : Obj) (op : O)
  | ret (t : Tid) (r : R)
  | client (t : Tid) (a : CAct X) (r : Option X)

/-- What a thread is doing. -/
inductive Pc (O R : Type) where
  | idle
  /-- `op` called on `o`; `fenced`: the SC fence before the access has been made -/
  | todo (o : Obj) (op : O) (fenced : Bool)
  /-- the result is known; `need`: the SC fence after the access is still to be made -/
  | fin (r : R) (need : Bool)

structure State (W X O R : Type) where
  mo : Obj → List (Msg Loc W)
  mx : Nat → List (Msg Loc X)
  tv : Tid → TV Loc
  sc : View Loc
  pc : Tid → Pc O R

variable {W X O R : Type}

/-- `Access S ms v l op ord ms' v' r`: `op` on location `l` is one access (or none) with ordering `ord`
and result `r`. -/
inductive Access (S : Spec W O R) (ms : List (Msg Loc W)) (v : TV Loc) (l : Loc) (op : O) :
    MemOrd → List (Msg Loc W) → TV Loc → R → Prop where
  | nothing (r) (hk : S.kind op r = .nothing) (hs : ∀ x, S.sem op x x r) : Access S ms v l op .relaxed ms v r
  | read (x v' r) (hk : S.kind op r = .read) (h : Load ms v l (S.fail op) x v') (hs : S.sem op x x r) :
      Access S ms v l op (S.fail op) ms v' r
  | write (x y ms' v' r) (hk : S.kind op r = .write) (h : Rmw ms v l (S.succ op) (fun _ => y) x ms' v')
      (hs : S.sem op x y r) : Access S ms v l op (S.succ op) ms' v' r
  | store (y ms' v' r) (hk : S.kind op r = .store) (h : Store ms v l (S.succ op) y ms' v')
      (hs : ∀ x, S.sem op x y r) : Access S ms v l op (S.succ op) ms' v' r

/-- Thread `t` moves to `p`. -/
def State.goto (s : State W X O R) (t : Tid) (p : Pc O R) : State W X O R :=
  { s with pc := Function.update s.pc t p }

/-- A sequentially consistent fence of thread `t`. -/
def State.scFence (s : State W X O R) (t : Tid) : State W X O R :=
  { s with tv := Function.update s.tv t ((s.tv t).scFence s.sc), sc := (s.tv t).acq ⊔ s.sc }

inductive Step (S : Spec W O R) : State W X O R → Option (Ev O R X) → State W X O R → Prop where
  | inv (s) (t o op) (h : s.pc t = .idle) : Step S s (some (.inv t o op)) (s.goto t (.todo o op false))
  /-- the fence before a sequentially consistent access (allowed before any access: it only makes
  the operation stronger) -/
  | pre (s) (t o op b) (h : s.pc t = .todo o op b) : Step S s none ((s.scFence t).goto t (.todo o op true))
  | access (s) (t o op b ord ms v r) (h : s.pc t = .todo o op b)
      (ha : Access S (s.mo o) (s.tv t) (.obj o) op ord ms v r) (hs : ord = MemOrd.seqCst → b = true) :
      Step S s none ({ s with mo := Function.update s.mo o ms, tv := Function.update s.tv t v }.goto t
        (.fin r (decide (ord = MemOrd.seqCst))))
  /-- the fence after it -/
  | post (s) (t r b) (h : s.pc t = .fin r b) : Step S s none ((s.scFence t).goto t (.fin r false))
  | ret (s) (t r) (h : s.pc t = .fin r false) : Step S s (some (.ret t r)) (s.goto t .idle)
  | client (s) (t a r mx v sc) (h : s.pc t = .idle)
      (hc : Client .ext s.sc s.mx (s.tv t) a r mx v sc) :
      Step S s (some (.client t a r)) { s with mx := mx, tv := Function.update s.tv t v, sc := sc }

/-- Initial contents of the objects and of the client's variables. -/
def init (w0 : Obj → W) (x0 : Nat → X) : State W X O R where
  mo o := initMsgs (w0 o)
  mx a := initMsgs (x0 a)
  tv _ := .init
  sc := ⊥
  pc _ := .idle

/-- The behaviours in which each operation is one access. -/
def Behaviour (S : Spec W O R) (w0 : Obj → W) (x0 : Nat → X) (h : List (Ev O R X)) : Prop :=
  ∃ s, Exec (Step S) (init w0 x0) h s

end Verif.WM.Derived
