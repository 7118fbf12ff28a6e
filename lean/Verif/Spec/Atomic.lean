import Mathlib.Logic.Function.Basic
import Verif.Ordering
/-!
# Specification: atomic memory cells

Nothing in this file models code.  It says what a user of an atomic integer expects: each object is
a plain cell, each operation is one indivisible step on the cell, and a concurrent history is
acceptable when such a step can be placed between every call and its return.
-/
namespace Verif

/-- The operations of an atomic of value type `V`.  `rmw f` stands for every `fetch_*` operation;
the actual functions are listed where they are used. -/
inductive Op (V : Type) where
  | load (ord : MemOrd)
  | store (v : V) (ord : MemOrd)
  | swap (v : V) (ord : MemOrd)
  | cas (cur new : V) (succ fail : MemOrd)
  | rmw (f : V → V) (ord : MemOrd)

/-- What a call returns. -/
inductive Res (V : Type) where
  | unit
  | val (v : V)
  | ok (v : V)
  | err (v : V)
  | panic
deriving DecidableEq

/-- Is the memory ordering argument one the operation accepts? -/
def Op.ordOk {V : Type} : Op V → Bool
  | .load o => o != .release && o != .acqRel
  | .store _ o => o != .acquire && o != .acqRel
  | .swap _ _ => true
  | .cas _ _ _ f => f != .release && f != .acqRel
  | .rmw _ _ => true

/-- The operation on a plain cell: new contents and result. -/
def Op.onCell {V : Type} [DecidableEq V] (op : Op V) (x : V) : V × Res V :=
  if op.ordOk then
    match op with
    | .load _ => (x, .val x)
    | .store v _ => (v, .unit)
    | .swap v _ => (v, .val x)
    | .cas cur new _ _ => if x = cur then (new, .ok x) else (x, .err x)
    | .rmw f _ => (f x, .val x)
  else (x, .panic)

/-- Thread identifiers and object identifiers. -/
abbrev Tid := Nat
abbrev Obj := Nat

/-- The observable events: a thread calls an operation on an object; a thread's call returns. -/
inductive Ev (V : Type) where
  | inv (t : Tid) (o : Obj) (op : Op V)
  | ret (t : Tid) (r : Res V)

/-- Executions of a labelled transition system: `Exec step s h s'` says that `s'` is reached from
`s` by finitely many steps whose visible labels are `h`. -/
inductive Exec {S E : Type} (step : S → Option E → S → Prop) : S → List E → S → Prop where
  | refl (s) : Exec step s [] s
  | tau {s h s' s''} : Exec step s h s' → step s' none s'' → Exec step s h s''
  | ev {s h s' e s''} : Exec step s h s' → step s' (some e) s'' → Exec step s (h ++ [e]) s''

namespace Exec
variable {S E : Type} {step : S → Option E → S → Prop}

theorem trans {a b c : S} {h k : List E} (x : Exec step a h b) (y : Exec step b k c) :
    Exec step a (h ++ k) c := by
  induction y with
  | refl => simpa using x
  | tau _ st ih => exact .tau ih st
  | ev _ st ih => rw [← List.append_assoc]; exact .ev ih st

theorem one_tau {a b : S} (x : step a none b) : Exec step a [] b := .tau (.refl a) x

theorem mono {step' : S → Option E → S → Prop} (hs : ∀ s e s', step s e s' → step' s e s') {a b : S}
    {h : List E} (x : Exec step a h b) : Exec step' a h b := by
  induction x with
  | refl => exact .refl _
  | tau _ st ih => exact .tau ih (hs _ _ _ st)
  | ev _ st ih => exact .ev ih (hs _ _ _ st)

theorem inv_of {P : S → Prop} (hstep : ∀ s e s', P s → step s e s' → P s') {a b : S} {h : List E}
    (x : Exec step a h b) (ha : P a) : P b := by
  induction x with
  | refl => exact ha
  | tau _ st ih => exact hstep _ _ _ ih st
  | ev _ st ih => exact hstep _ _ _ ih st

end Exec

namespace Atomic

/-- What a thread is doing, seen from the specification. -/
inductive Th (V : Type) where
  | idle
  | pending (o : Obj) (op : Op V)
  | done (r : Res V)

/-- The specification state: the cells, and each thread's status. -/
structure State (V : Type) where
  cell : Obj → V
  th : Tid → Th V

variable {V : Type} [DecidableEq V]

/-- Steps of the specification.  `commit` is the single indivisible moment at which a pending
operation acts on its cell. -/
inductive Step : State V → Option (Ev V) → State V → Prop where
  | inv (s : State V) (t o op) (h : s.th t = .idle) :
      Step s (some (.inv t o op)) { s with th := Function.update s.th t (.pending o op) }
  | commit (s : State V) (t o op) (h : s.th t = .pending o op) :
      Step s none
        { cell := Function.update s.cell o (op.onCell (s.cell o)).1
          th := Function.update s.th t (.done (op.onCell (s.cell o)).2) }
  | ret (s : State V) (t r) (h : s.th t = .done r) :
      Step s (some (.ret t r)) { s with th := Function.update s.th t .idle }

/-- All threads idle, given cell contents. -/
def init (cells : Obj → V) : State V := { cell := cells, th := fun _ => .idle }

/-- A history of calls and returns is linearizable from the given initial contents when the
specification can produce it. -/
def Linearizable (cells : Obj → V) (h : List (Ev V)) : Prop :=
  ∃ s, Exec Step (init cells) h s

end Atomic
end Verif
