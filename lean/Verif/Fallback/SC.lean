import Verif.Fallback.Code
/-!
# The fallback on an interleaving (sequentially consistent) memory

Any number of threads; each step is one shared action of one thread.  Assumption recorded in
DESIGN.md: `core` atomics on lock words and chunks are single indivisible accesses.
-/
namespace Verif
namespace Fallback

/-- Machine state.  `mem` and `pc` are the state of the program.  `ver` and `start` are ghost
variables that no step reads: `ver l` counts the completed (not aborted) write sections of lock `l`,
`start t` is the count at the call of thread `t`'s current operation. -/
structure State (V : Type) (W : Nat) where
  mem : Loc → BitVec W
  pc : Tid → Pc V W
  ver : Nat → Nat
  start : Tid → Nat

/-- Effect of one action on an interleaving memory: new memory and value returned. -/
def execSC {W : Nat} (m : Loc → BitVec W) : Act W → (Loc → BitVec W) × BitVec W
  | .load l _ => (m, m l)
  | .naLoad l => (m, m l)
  | .store l v _ => (Function.update m l v, 0)
  | .swap l v _ => (Function.update m l v, m l)
  | .fence _ => (m, 0)

variable {V : Type} [DecidableEq V]

namespace Cfg
variable (c : Cfg V)

/-- Ghost update: a completed write section increments the count of its lock. -/
def bump (pc : Pc V c.W) (ver : Nat → Nat) : Nat → Nat :=
  match pc with
  | .dropStore k _ _ => Function.update ver (c.lockOf k.obj) (ver (c.lockOf k.obj) + 1)
  | _ => ver

/-- Thread `t` performs the action `a` of its program point. -/
def doAct (s : State V c.W) (t : Tid) (a : Act c.W) : State V c.W :=
  { mem := (execSC s.mem a).1
    pc := Function.update s.pc t (c.next (s.pc t) (execSC s.mem a).2)
    ver := c.bump (s.pc t) s.ver
    start := s.start }

/-- Steps of the machine. -/
inductive Step : State V c.W → Option (Ev V) → State V c.W → Prop where
  | inv (s : State V c.W) (t : Tid) (o : Obj) (op : Op V) (h : s.pc t = .idle)
      (hf : op.Fits (c.fits o)) :
      Step s (some (.inv t o op))
        { s with pc := Function.update s.pc t (c.start ⟨o, op⟩)
                 start := Function.update s.start t (s.ver (c.lockOf o)) }
  | act (s : State V c.W) (t : Tid) (a : Act c.W) (h : c.act (s.pc t) = some a) :
      Step s none (c.doAct s t a)
  | ret (s : State V c.W) (t : Tid) (r : Res V) (h : s.pc t = .ret r) :
      Step s (some (.ret t r)) { s with pc := Function.update s.pc t .idle }

/-- Initial state: the objects hold `cells`, all locks are free with `v0 l` write sections already
behind them (`SeqLock::new` is `v0 = 0`; the general form covers every later moment), all threads
idle. -/
def init (cells : Obj → V) (v0 : Nat → Nat) (ext : Nat → BitVec c.W) : State V c.W :=
  { mem := fun
      | .hi l => BitVec.ofNat c.W (v0 l / 2 ^ (c.W - 1))
      | .lo l => BitVec.ofNat c.W (2 * v0 l)
      | .chunk o i => c.split o (cells o) i
      | .ext a => ext a
    pc := fun _ => .idle
    ver := v0
    start := fun _ => 0 }

/-- The object of an optimistic load in progress. -/
def optObj : Pc V c.W → Option Obj
  | .optHi k => some k.obj
  | .optLo k _ => some k.obj
  | .optChunk k _ _ _ _ => some k.obj
  | .valFence k _ _ _ => some k.obj
  | .valLo k _ _ _ => some k.obj
  | .valHi k _ _ _ _ => some k.obj
  | _ => none

/-- How many write sections of one lock may complete within one optimistic load. -/
def maxOverlap : Nat := if c.wide then 2 ^ (2 * c.W - 1) - 2 ^ (c.W - 1) else 2 ^ (c.W - 1)

/-- No optimistic load in progress has been overtaken by `maxOverlap` or more write sections. -/
def NoWrap (s : State V c.W) : Prop :=
  ∀ t o, c.optObj (s.pc t) = some o → s.ver (c.lockOf o) < s.start t + c.maxOverlap

/-- Steps that stay below the wrap-around bound. -/
def StepB (s : State V c.W) (e : Option (Ev V)) (s' : State V c.W) : Prop :=
  c.Step s e s' ∧ c.NoWrap s

end Cfg
end Fallback
end Verif
