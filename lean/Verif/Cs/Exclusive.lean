import Verif.Cs.Sim
import Verif.Spec.Exclusive
/-!
# Exclusive access to atomics that work in a critical section

The machine of `Cs.Code` with, in addition, the owner of an object taking it out of circulation and putting it back (`src/lib.rs`: see
`Lf.Exclusive`).  The owner's accesses are plain ones, outside any critical section.
-/
set_option autoImplicit false
set_option linter.unusedSectionVars false
namespace Verif.Cs
open Verif.Object Verif.Irq

variable {n : Nat} {C : Type} [DecidableEq C]

/-- The object on which an operation at this program point holds a reference (it is done with it once it has the result). -/
def Pc.ref : Pc n C → Option Obj
  | .start o _ | .native o _ | .acq o _ | .rd o _ _ | .wr o _ _ _ _ => some o
  | .rel _ | .fin _ => none

/-- State.  `out o`: the object is in its owner's hands. -/
structure XState (n : Nat) (C : Type) where
  s : State n C
  out : Obj → Bool

/-- Steps.  The guards are Rust's borrowing rules: an object can be taken out only when no call refers to it, and no call on it can be
made until it is put back.  (A call that has released the critical section, or is about to, no longer refers to the object.)
* `take`: `get_mut` (`src/lib.rs` L2978) or `into_inner` (L3030); * `raw`: the owner writes; * `put`: end of the borrow, or `new` (L2825). -/
inductive XStep (K : Cfg n C) : XState n C →
    Option (Excl.Ev (Object.Ev (Obj × Op (Val n C) × Nat) (Res (Val n C) × Nat)) Obj (Val n C)) → XState n C → Prop where
  | act (x : XState n C) (s' : State n C) (h : Step K x.s none s') : XStep K x none { x with s := s' }
  | inv (x : XState n C) (s' : State n C) (t : Tid) (op : Obj × Op (Val n C) × Nat) (h : Step K x.s (some (.inv t op)) s')
      (ho : x.out op.1 = false) : XStep K x (some (.call (.inv t op))) { x with s := s' }
  | ret (x : XState n C) (s' : State n C) (t : Tid) (r : Res (Val n C) × Nat) (h : Step K x.s (some (.ret t r)) s') :
      XStep K x (some (.call (.ret t r))) { x with s := s' }
  | take (x : XState n C) (o : Obj) (ho : x.out o = false) (hx : ∀ t pc, x.s.th t = some pc → pc.ref ≠ some o) :
      XStep K x (some (.take o (x.s.mem o))) { x with out := Function.update x.out o true }
  | raw (x : XState n C) (o : Obj) (v : Val n C) (ho : x.out o = true) :
      XStep K x none { x with s := { x.s with mem := Function.update x.s.mem o v } }
  | put (x : XState n C) (o : Obj) (ho : x.out o = true) :
      XStep K x (some (.put o (x.s.mem o))) { x with out := Function.update x.out o false }

/-- Runs from memory `m`, the objects in `out0` not constructed yet. -/
def XRuns (K : Cfg n C) (m : Mem n C) (out0 : Obj → Bool)
    (h : List (Excl.Ev (Object.Ev (Obj × Op (Val n C) × Nat) (Res (Val n C) × Nat)) Obj (Val n C))) (x : XState n C) : Prop :=
  Exec (XStep K) ⟨init m, out0⟩ h x

/-! ## Proof internals -/

theorem act_ref {K : Cfg n C} {t : Tid} {s : State n C} {pc : Pc n C} {m' held' pc'} (ha : Act K t s pc m' held' pc') {o : Obj}
    (h : pc'.ref = some o) : pc.ref = some o := by
  cases ha <;> first | exact h | cases h

theorem act_local {K : Cfg n C} {t : Tid} {s : State n C} {pc : Pc n C} {m' held' pc'} (ha : Act K t s pc m' held' pc') (m : Mem n C)
    (hm : ∀ o, pc.ref = some o → m o = s.mem o) :
    ∃ m₂, Act K t { s with mem := m } pc m₂ held' pc' ∧ ∀ o, m o = s.mem o → m₂ o = m' o := by
  cases ha with
  | panic ho => exact ⟨m, .panic (s := { s with mem := m }) ho, fun _ h => h⟩
  | refuse ho hr => exact ⟨m, .refuse (s := { s with mem := m }) ho hr, fun _ h => h⟩
  | goNative ho hr hc => exact ⟨m, .goNative (s := { s with mem := m }) ho hr hc, fun _ h => h⟩
  | goAcq ho hr hc => exact ⟨m, .goAcq (s := { s with mem := m }) ho hr hc, fun _ h => h⟩
  | @nat o op =>
    have e := hm o rfl
    refine ⟨Function.update m o (op.onCell (m o)).1, ?_, fun o' h => ?_⟩
    · have := Act.nat (K := K) (t := t) (s := { s with mem := m }) (o := o) (op := op)
      dsimp only at this
      rw [← e]; exact this
    · by_cases ho : o' = o
      · subst ho; simp [e]
      · simpa [Function.update_of_ne ho] using h
  | acqRd hf h => exact ⟨m, .acqRd (s := { s with mem := m }) hf h, fun _ h => h⟩
  | acqWr hf => exact ⟨m, .acqWr (s := { s with mem := m }) hf, fun _ h => h⟩
  | @rd o op buf i hb =>
    refine ⟨m, ?_, fun _ h => h⟩
    have := Act.rd (K := K) (t := t) (s := { s with mem := m }) (o := o) (op := op) i hb
    dsimp only at this
    rw [hm o rfl] at this
    exact this
  | rdRel hx hr => exact ⟨m, .rdRel (s := { s with mem := m }) hx hr, fun _ h => h⟩
  | rdWr hx hr => exact ⟨m, .rdWr (s := { s with mem := m }) hx hr, fun _ h => h⟩
  | @wr o op new wrote r i hb =>
    have e := hm o rfl
    refine ⟨_, .wr (s := { s with mem := m }) i hb, fun o' h => ?_⟩
    by_cases ho : o' = o
    · subst ho; simp [e]
    · simpa [Function.update_of_ne ho] using h
  | wrRel hw => exact ⟨m, .wrRel (s := { s with mem := m }) hw, fun _ h => h⟩
  | rel => exact ⟨m, .rel (s := { s with mem := m }), fun _ h => h⟩

theorem step_agree {K : Cfg n C} {s s' : State n C} {e} (st : Step K s e s') {out : Obj → Bool} {m : Mem n C}
    (hm : ∀ o, out o = false → m o = s.mem o) (hk : ∀ t pc, s.th t = some pc → ∀ o, pc.ref = some o → out o = false) :
    ∃ m', (∀ o, out o = false → m' o = s'.mem o) ∧ Step K { s with mem := m } e { s' with mem := m' } := by
  cases st with
  | enter t h hf => exact ⟨m, hm, .enter { s with mem := m } t h hf⟩
  | leave t h => exact ⟨m, hm, .leave { s with mem := m } t h⟩
  | inv t o op h => exact ⟨m, hm, .inv { s with mem := m } t o op h⟩
  | ret t r h => exact ⟨m, hm, .ret { s with mem := m } t r h⟩
  | act t pc m' held' pc' h ha =>
    obtain ⟨m₂, h1, h2⟩ := act_local ha m fun o ho => hm o (hk t pc h o ho)
    exact ⟨m₂, fun o ho => h2 o (hm o ho), .act { s with mem := m } t pc m₂ held' pc' h h1⟩

theorem ref_keep {K : Cfg n C} {s s' : State n C} {e} (st : Step K s e s') {out : Obj → Bool}
    (ho : ∀ t op, e = some (.inv t op) → out op.1 = false)
    (hk : ∀ t pc, s.th t = some pc → ∀ o, pc.ref = some o → out o = false) :
    ∀ t pc, s'.th t = some pc → ∀ o, pc.ref = some o → out o = false := by
  intro u pc hl o hr
  cases st with
  | enter t h hf => exact hk _ _ hl _ hr
  | leave t h => exact hk _ _ hl _ hr
  | inv t o' op h =>
    by_cases e : u = t
    · subst e
      simp only [Function.update_self, Option.some.injEq] at hl
      subst hl
      cases hr
      exact ho _ _ rfl
    · simp only [Function.update_of_ne e] at hl; exact hk _ _ hl _ hr
  | ret t r h =>
    by_cases e : u = t
    · subst e; simp at hl
    · simp only [Function.update_of_ne e] at hl; exact hk _ _ hl _ hr
  | act t pc0 m' held' pc' h ha =>
    by_cases e : u = t
    · subst e
      simp only [Function.update_self, Option.some.injEq] at hl
      subst hl
      exact hk _ _ h _ (act_ref ha hr)
    · simp only [Function.update_of_ne e] at hl; exact hk _ _ hl _ hr

theorem writing_ref {o : Obj} {pc : Pc n C} (h : writing o (some pc)) : pc.ref = some o := by
  cases pc <;> first | exact congrArg some h | exact h.elim

/-- The invariant of runs with exclusive access. -/
def XInv (K : Cfg n C) (c0 : Mem n C) (h : List (Excl.Ev (Object.Ev (Obj × Op (Val n C) × Nat) (Res (Val n C) × Nat)) Obj (Val n C)))
    (x : XState n C) : Prop :=
  (∀ t pc, x.s.th t = some pc → ∀ o, pc.ref = some o → x.out o = false) ∧
  ∃ m a, (∀ o, x.out o = false → m o = x.s.mem o) ∧
    Exec (Excl.MemStep (spec K)) { obj := c0, th := fun _ => .idle } h a ∧ Rel K { x.s with mem := m } a

theorem xinv_step {K : Cfg n C} {c0 : Mem n C} {h} {x x' : XState n C} {e} (H : XInv K c0 h x) (st : XStep K x e x') :
    XInv K c0 (h ++ e.toList) x' := by
  obtain ⟨h1, m, a, h2, h3, h4⟩ := H
  have prog : ∀ {e0 : Option (Object.Ev (Obj × Op (Val n C) × Nat) (Res (Val n C) × Nat))} {s'}, Step K x.s e0 s' →
      (∀ t op, e0 = some (.inv t op) → x.out op.1 = false) →
      XInv K c0 (h ++ (e0.map Excl.Ev.call).toList) { x with s := s' } := by
    intro e0 s' hs ho
    obtain ⟨m', h5, h6⟩ := step_agree hs h2 h1
    obtain ⟨a', h7, h8⟩ := sim_step h6 h4
    refine ⟨ref_keep hs ho h1, m', a', h5, ?_, h7⟩
    rcases h8 with ⟨rfl, rfl | h8⟩ | ⟨ev, rfl, h8⟩
    · simpa using h3
    · simpa using Exec.tau h3 (.tau _ _ h8)
    · exact .ev h3 (.call _ _ _ h8)
  cases st with
  | act s' hs => exact prog hs (fun t op e => by cases e)
  | inv s' t op hs ho => exact prog hs (fun t op e => by cases e; exact ho)
  | ret s' t r hs => exact prog hs (fun t op e => by cases e)
  | take o ho hx =>
    refine ⟨fun t pc hl o' hr => ?_, m, a, fun o' ho' => ?_, ?_, h4⟩
    · have ne : o' ≠ o := fun e => by subst e; exact hx t pc hl hr
      dsimp only; rw [Function.update_of_ne ne]; exact h1 t pc hl o' hr
    · by_cases e : o' = o
      · subst e; simp at ho'
      · dsimp only at ho'; rw [Function.update_of_ne e] at ho'; exact h2 _ ho'
    · have hv : a.obj o = x.s.mem o := by
        rw [← h2 o ho]
        refine (h4.mem o fun t hw => ?_).symm
        cases hp : x.s.th t with
        | none => dsimp only at hw; rw [hp] at hw; exact hw
        | some pc => dsimp only at hw; rw [hp] at hw; exact hx t pc hp (writing_ref hw)
      have := Exec.ev h3 (Excl.With.take _ o)
      rw [hv] at this
      exact this
  | raw o v ho =>
    refine ⟨h1, m, a, fun o' ho' => ?_, by simpa using h3, h4⟩
    have e : o' ≠ o := fun e => by subst e; rw [show x.out o' = false from ho'] at ho; cases ho
    simpa [Function.update_of_ne e] using h2 o' ho'
  | put o ho =>
    have hno : ∀ t pc, x.s.th t = some pc → pc.ref ≠ some o := fun t pc hl e => by
      have := h1 t pc hl o e
      rw [ho] at this; cases this
    refine ⟨fun t pc hl o' hr => ?_, Function.update m o (x.s.mem o), { a with obj := Function.update a.obj o (x.s.mem o) },
      fun o' ho' => ?_, .ev h3 (Excl.With.put _ o _), h4.excl, h4.at_, fun t => ?_, fun o' ho' => ?_⟩
    · have ne : o' ≠ o := fun e => by subst e; exact hno t pc hl hr
      dsimp only; rw [Function.update_of_ne ne]; exact h1 t pc hl o' hr
    · by_cases e : o' = o
      · subst e; simp
      · dsimp only at ho' ⊢; rw [Function.update_of_ne e] at ho' ⊢; exact h2 _ ho'
    · refine memAt_other (o := o) (fun o' e => Function.update_of_ne e _ _) (fun o' e => Function.update_of_ne e _ _)
        (fun p hp => ⟨?_, ?_⟩) (h4.memAt t)
      · rintro op buf rfl; exact hno t _ hp rfl
      · rintro op new wrote r rfl; exact hno t _ hp rfl
    · by_cases e : o' = o
      · subst e; simp
      · dsimp only; rw [Function.update_of_ne e, Function.update_of_ne e]; exact h4.mem o' ho'

theorem xinv {K : Cfg n C} {m : Mem n C} {out0 : Obj → Bool} {h} {x : XState n C} (hx : XRuns K m out0 h x) : XInv K m h x := by
  unfold XRuns at hx
  generalize hi : (⟨init m, out0⟩ : XState n C) = i at hx
  induction hx with
  | refl =>
    subst hi
    exact ⟨fun t pc hl => by simp [init] at hl, m, ⟨m, fun _ => .idle⟩, fun _ _ => rfl, .refl _,
      fun t u h => absurd rfl h, fun _ => rfl, fun _ => trivial, fun _ _ => rfl⟩
  | tau _ st ih => simpa using xinv_step ih st
  | ev _ st ih => exact xinv_step ih st

end Verif.Cs
