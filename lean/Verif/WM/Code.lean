import Verif.WM.Machine
import Verif.Fallback.Code
/-!
# The lock-based atomics in weak memory

The automaton of `Fallback/Code.lean` (all of `src/imp/fallback/*.rs`: program points, accesses,
orderings) run on the weak memory of `WM/Machine.lean`, with the most general client around it.

The one non-atomic access of the code — the plain read under the lock (`src/imp/fallback/mod.rs`
L178-180) — is a relaxed read here that also leaves a mark (`rd`) in the reader's view, so that
`Props/WeakMemory.lean` can say that no write races with it.
-/
set_option autoImplicit false
namespace Verif.WM.Lock
open Verif.Fallback

/-- Components of a view: locations, and for each location and thread how many plain reads of it by
that thread are known. -/
inductive CL where
  | mem (l : Fallback.Loc)
  | rd (l : Fallback.Loc) (t : Tid)
deriving DecidableEq

variable {V X : Type} [DecidableEq V]

structure State (c : Cfg V) (X : Type) where
  mem : Fallback.Loc → List (Msg CL (BitVec c.W))
  mx : Nat → List (Msg CL X)
  tv : Tid → TV CL
  sc : View CL
  pc : Tid → Fallback.Pc V c.W
  /-- plain reads so far, by location and thread -/
  nr : Fallback.Loc → Tid → Nat

/-- The client's variable `a`. -/
def ext (a : Nat) : CL := .mem (.ext a)

/-- Views after a plain read, the `n`-th of `l` by `t`. -/
def mark (v : TV CL) (l : Fallback.Loc) (t : Tid) (n : Nat) : TV CL :=
  { v with cur := v.cur ⊔ single (.rd l t) n, acq := v.acq ⊔ single (.rd l t) n }

/-- One action of thread `t` returning `x` (stores and fences return nothing; `x` is then ignored by
the code). -/
inductive Do {c : Cfg V} (s : State c X) (t : Tid) : Act c.W → BitVec c.W → State c X → Prop where
  | load (l o x v) (h : Load (s.mem l) (s.tv t) (.mem l) o x v) :
      Do s t (.load l o) x { s with tv := Function.update s.tv t v }
  | naLoad (l x v) (h : Load (s.mem l) (s.tv t) (.mem l) .relaxed x v) :
      Do s t (.naLoad l) x { s with
        tv := Function.update s.tv t (mark v l t (s.nr l t + 1)),
        nr := Function.update s.nr l (Function.update (s.nr l) t (s.nr l t + 1)) }
  | store (l y o ms v) (h : Store (s.mem l) (s.tv t) (.mem l) o y ms v) :
      Do s t (.store l y o) 0 { s with mem := Function.update s.mem l ms, tv := Function.update s.tv t v }
  | swap (l y o x ms v) (h : Rmw (s.mem l) (s.tv t) (.mem l) o (fun _ => y) x ms v) :
      Do s t (.swap l y o) x { s with mem := Function.update s.mem l ms, tv := Function.update s.tv t v }
  | fence (o) : Do s t (.fence o) 0 { s with
      tv := Function.update s.tv t (fence (s.tv t) s.sc o).1, sc := (fence (s.tv t) s.sc o).2 }

/-- Thread `t` moves to `p`. -/
def State.goto {c : Cfg V} (s : State c X) (t : Tid) (p : Fallback.Pc V c.W) : State c X :=
  { s with pc := Function.update s.pc t p }

inductive Step {c : Cfg V} : State c X → Option (Ev V X) → State c X → Prop where
  | inv (s) (t o op) (h : s.pc t = .idle) (hf : op.Fits (c.fits o)) :
      Step s (some (.inv t o op)) (s.goto t (c.start ⟨o, op⟩))
  | act (s) (t a x s') (h : c.act (s.pc t) = some a) (hd : Do s t a x s') :
      Step s none (s'.goto t (c.next (s.pc t) x))
  | ret (s) (t r) (h : s.pc t = .ret r) : Step s (some (.ret t r)) (s.goto t .idle)
  | client (s) (t a r mx v sc) (h : s.pc t = .idle)
      (hc : Client ext s.sc s.mx (s.tv t) a r mx v sc) :
      Step s (some (.client t a r)) { s with mx := mx, tv := Function.update s.tv t v, sc := sc }

/-- Initial contents: locks free with stamp 0, objects hold `v0`, client variables `x0`. -/
def init (c : Cfg V) (v0 : Obj → V) (x0 : Nat → X) : State c X where
  mem
    | .chunk o i => initMsgs (c.split o (v0 o) i)
    | _ => initMsgs 0
  mx a := initMsgs (x0 a)
  tv _ := .init
  sc := ⊥
  pc _ := .idle
  nr _ _ := 0

end Verif.WM.Lock
