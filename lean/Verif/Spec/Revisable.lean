import Verif.Spec.Atomic
/-!
# An intermediate specification for optimistic reads (proof device, not a model of code)

Like `Atomic`, but a pending operation may *observe* the cell as often as it likes without changing
it, and finally return the last observation.  `Revisable.to_atomic` shows that this allows no more
histories than `Atomic`.
-/
namespace Verif
namespace Revisable

/-- Thread status; a pending operation may carry a candidate result. -/
inductive Th (V : Type) where
  | idle
  | pending (o : Obj) (op : Op V) (cand : Option (Res V))
  | done (r : Res V)

/-- State of the intermediate specification. -/
structure State (V : Type) where
  cell : Obj → V
  th : Tid → Th V

variable {V : Type} [DecidableEq V]

/-- Steps of the intermediate specification. -/
inductive Step : State V → Option (Ev V) → State V → Prop where
  | inv (s : State V) (t o op) (h : s.th t = .idle) :
      Step s (some (.inv t o op)) { s with th := Function.update s.th t (.pending o op none) }
  | obs (s : State V) (t o op c r) (h : s.th t = .pending o op c)
      (hr : op.onCell (s.cell o) = (s.cell o, r)) :
      Step s none { s with th := Function.update s.th t (.pending o op (some r)) }
  | commit (s : State V) (t o op c) (h : s.th t = .pending o op c) :
      Step s none
        { cell := Function.update s.cell o (op.onCell (s.cell o)).1
          th := Function.update s.th t (.done (op.onCell (s.cell o)).2) }
  | ret (s : State V) (t r) (h : s.th t = .done r) :
      Step s (some (.ret t r)) { s with th := Function.update s.th t .idle }
  | retCand (s : State V) (t o op r) (h : s.th t = .pending o op (some r)) :
      Step s (some (.ret t r)) { s with th := Function.update s.th t .idle }

/-- All threads idle. -/
def init (cells : Obj → V) : State V := { cell := cells, th := fun _ => .idle }

/-- Resolve one thread: the boolean says whether its candidate is taken as final. -/
def resolve (b : Bool) : Th V → Atomic.Th V
  | .idle => .idle
  | .done r => .done r
  | .pending o op none => .pending o op
  | .pending o op (some r) => if b then .done r else .pending o op

/-- Resolve all threads. -/
def proj (b : Tid → Bool) (s : State V) : Atomic.State V :=
  { cell := s.cell, th := fun t => resolve (b t) (s.th t) }

theorem st_eq {a : Atomic.State V} {e : Option (Ev V)} {b c : Atomic.State V}
    (h : Atomic.Step a e b) (h1 : c.cell = b.cell) (h2 : c.th = b.th) : Atomic.Step a e c := by
  cases b; cases c; simp only at h1 h2; subst h1 h2; exact h

theorem exec_proj {cells : Obj → V} {h : List (Ev V)} {s : State V}
    (x : Exec Step (init cells) h s) :
    ∀ b : Tid → Bool, Exec Atomic.Step (Atomic.init cells) h (proj b s) := by
  generalize hi : init cells = i at x
  induction x with
  | refl =>
    intro b; subst hi
    exact .refl _
  | @tau h s' s'' _ st ih =>
    intro b
    cases st with
    | obs t o op c r hp hr =>
      cases hb : b t with
      | true =>
        have := ih (Function.update b t false)
        refine .tau this ?_
        have hs : (proj (Function.update b t false) s').th t = .pending o op := by
          simp only [proj, Function.update_self, hp]
          cases c <;> simp [resolve]
        have st := Atomic.Step.commit _ _ _ _ hs
        have e1 : (proj (Function.update b t false) s').cell = s'.cell := rfl
        rw [e1, hr] at st
        simp only [Function.update_eq_self] at st
        refine st_eq st rfl (funext fun u => ?_)
        by_cases hu : u = t
        · subst hu; simp [proj, resolve, *]
        · simp [proj, Function.update_of_ne hu]
      | false =>
        have hcand : (proj (Function.update b t false) s') = proj b
            ({ s' with th := Function.update s'.th t (.pending o op (some r)) }) := by
          simp only [proj]
          congr 1
          funext u
          by_cases hu : u = t
          · subst hu; cases c <;> simp [proj, resolve, *]
          · simp [Function.update_of_ne hu]
        rw [← hcand]; exact ih _
    | commit t o op c hp =>
      have := ih (Function.update b t false)
      refine .tau this ?_
      have hs : (proj (Function.update b t false) s').th t = .pending o op := by
        simp only [proj, Function.update_self, hp]
        cases c <;> simp [resolve]
      have st := Atomic.Step.commit _ _ _ _ hs
      refine st_eq st rfl (funext fun u => ?_)
      by_cases hu : u = t
      · subst hu; simp [proj, resolve, *]
      · simp [proj, Function.update_of_ne hu]
  | @ev h s' e s'' _ st ih =>
    intro b
    cases st with
    | inv t o op hp =>
      refine .ev (ih b) ?_
      have hs : (proj b s').th t = .idle := by simp [proj, hp, resolve]
      have st := Atomic.Step.inv _ _ o op hs
      refine st_eq st rfl (funext fun u => ?_)
      by_cases hu : u = t
      · subst hu; simp [proj, resolve, *]
      · simp [proj, Function.update_of_ne hu]
    | ret t r hp =>
      refine .ev (ih b) ?_
      have hs : (proj b s').th t = .done r := by simp [proj, hp, resolve]
      have st := Atomic.Step.ret _ _ _ hs
      refine st_eq st rfl (funext fun u => ?_)
      by_cases hu : u = t
      · subst hu; simp [proj, resolve, *]
      · simp [proj, Function.update_of_ne hu]
    | retCand t o op r hp =>
      refine .ev (ih (Function.update b t true)) ?_
      have hs : (proj (Function.update b t true) s').th t = .done r := by
        simp [proj, hp, resolve]
      have st := Atomic.Step.ret _ _ _ hs
      refine st_eq st rfl (funext fun u => ?_)
      by_cases hu : u = t
      · subst hu; simp [proj, resolve, *]
      · simp [proj, Function.update_of_ne hu]

/-- The intermediate specification allows only linearizable histories. -/
theorem to_atomic {cells : Obj → V} {h : List (Ev V)} {s : State V}
    (x : Exec Step (init cells) h s) : Atomic.Linearizable cells h :=
  ⟨_, exec_proj x (fun _ => false)⟩

end Revisable
end Verif
