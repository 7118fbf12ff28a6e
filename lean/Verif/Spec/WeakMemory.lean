import Verif.WM.Machine
/-!
# Specification: native atomics in weak memory

Nothing in this file models the crate.  Here every atomic object *is* one location of the weak
memory of `WM/Machine.lean`, and each operation is one access to it with the ordering the caller
asked for.  A sequentially consistent access is an acquire-release access between two sequentially
consistent fences.  A failed compare-exchange is a load with the failure ordering.

The client is the most general one: between operations, any thread may access any variable of its
own with any ordering, or issue any fence, at any time.
-/
set_option autoImplicit false
namespace Verif.WM.Native

/-- Locations: the atomic objects and the client's own variables. -/
inductive Loc where
  | obj (o : Obj)
  | ext (a : Nat)
deriving DecidableEq

/-- What a thread is doing. -/
inductive Pc (V : Type) where
  | idle
  /-- `op` called on `o`; `fenced`: the SC fence before the access has been made -/
  | todo (o : Obj) (op : Op V) (fenced : Bool)
  /-- the result is known; `need`: the SC fence after the access is still to be made -/
  | fin (r : Res V) (need : Bool)

structure State (V X : Type) where
  mo : Obj → List (Msg Loc V)
  mx : Nat → List (Msg Loc X)
  tv : Tid → TV Loc
  sc : View Loc
  pc : Tid → Pc V

variable {V X : Type} [DecidableEq V]

/-- `Access ms v l op ord ms' v' r`: `op` on location `l` is one access with effective ordering
`ord` and result `r`. -/
inductive Access (ms : List (Msg Loc V)) (v : TV Loc) (l : Loc) :
    Op V → MemOrd → List (Msg Loc V) → TV Loc → Res V → Prop where
  | load (o x v') (h : Load ms v l o x v') : Access ms v l (.load o) o ms v' (.val x)
  | store (x o ms' v') (h : Store ms v l o x ms' v') : Access ms v l (.store x o) o ms' v' .unit
  | swap (x o y ms' v') (h : Rmw ms v l o (fun _ => x) y ms' v') :
      Access ms v l (.swap x o) o ms' v' (.val y)
  | rmw (g o y ms' v') (h : Rmw ms v l o g y ms' v') : Access ms v l (.rmw g o) o ms' v' (.val y)
  | casOk (cur new s f ms' v') (h : Rmw ms v l s (fun _ => new) cur ms' v') :
      Access ms v l (.cas cur new s f) s ms' v' (.ok cur)
  | casErr (cur new s f y v') (h : Load ms v l f y v') (hy : y ≠ cur) :
      Access ms v l (.cas cur new s f) f ms v' (.err y)

/-- Thread `t` moves to `p`. -/
def State.goto (s : State V X) (t : Tid) (p : Pc V) : State V X :=
  { s with pc := Function.update s.pc t p }

/-- A fence of thread `t`. -/
def State.scFence (s : State V X) (t : Tid) : State V X :=
  { s with tv := Function.update s.tv t ((s.tv t).scFence s.sc), sc := (s.tv t).acq ⊔ s.sc }

inductive Step : State V X → Option (Ev V X) → State V X → Prop where
  | inv (s) (t o op) (h : s.pc t = .idle) :
      Step s (some (.inv t o op)) (s.goto t (.todo o op false))
  /-- an ordering the operation does not accept -/
  | panic (s) (t o op b) (h : s.pc t = .todo o op b) (ho : op.ordOk = false) :
      Step s none (s.goto t (.fin .panic false))
  /-- the fence before a sequentially consistent access (allowed before any access: it only makes
  the operation stronger) -/
  | pre (s) (t o op b) (h : s.pc t = .todo o op b) :
      Step s none ((s.scFence t).goto t (.todo o op true))
  | access (s) (t o op b ord ms v r) (h : s.pc t = .todo o op b) (ho : op.ordOk = true)
      (ha : Access (s.mo o) (s.tv t) (.obj o) op ord ms v r) (hs : ord = MemOrd.seqCst → b = true) :
      Step s none ({ s with mo := Function.update s.mo o ms, tv := Function.update s.tv t v }.goto t
        (.fin r (decide (ord = MemOrd.seqCst))))
  /-- the fence after it -/
  | post (s) (t r b) (h : s.pc t = .fin r b) : Step s none ((s.scFence t).goto t (.fin r false))
  | ret (s) (t r) (h : s.pc t = .fin r false) : Step s (some (.ret t r)) (s.goto t .idle)
  | client (s) (t a r mx v sc) (h : s.pc t = .idle)
      (hc : Client .ext s.sc s.mx (s.tv t) a r mx v sc) :
      Step s (some (.client t a r))
        { s with mx := mx, tv := Function.update s.tv t v, sc := sc }

/-- Initial contents of the objects and of the client's variables. -/
def init (v0 : Obj → V) (x0 : Nat → X) : State V X where
  mo o := initMsgs (v0 o)
  mx a := initMsgs (x0 a)
  tv _ := .init
  sc := ⊥
  pc _ := .idle

/-- The behaviours of native atomics. -/
def Behaviour (v0 : Obj → V) (x0 : Nat → X) (h : List (Ev V X)) : Prop :=
  ∃ s, Exec Step (init v0 x0) h s

end Verif.WM.Native
