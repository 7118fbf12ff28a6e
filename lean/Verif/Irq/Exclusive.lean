import Verif.Irq.Sim
import Verif.Spec.Exclusive
/-!
# Exclusive access to atomics that disable interrupts

The machine of `Irq.Code` with, in addition, the owner of an object taking it out of circulation and putting it back (`src/lib.rs`: see
`Lf.Exclusive`).  The owner is whichever context runs; its accesses are plain ones, with interrupts enabled or not.
-/
set_option autoImplicit false
set_option linter.unusedSectionVars false
namespace Verif.Irq
open Verif.Object

variable {n : Nat} {C : Type} [DecidableEq C]

/-- The object on which an operation at this program point holds a reference (it is done with it once it has the result). -/
def Pc.ref {w : Nat} : Pc w n C → Option Obj
  | .start o _ | .native o _ | .dis o _ _ _ _ | .rd o _ _ _ _ | .wr o _ _ _ _ _ _ => some o
  | .res .. | .fin _ => none

/-- Some context, running or interrupted, is in the middle of an operation on `o`. -/
def State.refers {w : Nat} (s : State w n C) (o : Obj) : Prop :=
  ∃ f ∈ s.top :: s.below, ∃ pc, f.pc = some pc ∧ pc.ref = some o

/-- State.  `out o`: the object is in its owner's hands. -/
structure XState (w n : Nat) (C : Type) where
  s : State w n C
  out : Obj → Bool

/-- Steps.  The guards are Rust's borrowing rules: an object can be taken out only when no call refers to it, and no call on it can be
made until it is put back.  Only the running context, between operations, can do so.
* `take`: `get_mut` (`src/lib.rs` L2978) or `into_inner` (L3030); * `raw`: the owner writes; * `put`: end of the borrow, or `new` (L2825). -/
inductive XStep (K : Cfg n C) : XState K.arch.w n C →
    Option (Excl.Ev (Object.Ev (Obj × Req (Val n C) × BitVec K.arch.w) (Res (Val n C) × BitVec K.arch.w)) Obj (Val n C)) →
    XState K.arch.w n C → Prop where
  | act (x : XState K.arch.w n C) (s' : State K.arch.w n C) (h : Step K x.s none s') : XStep K x none { x with s := s' }
  | inv (x : XState K.arch.w n C) (s' : State K.arch.w n C) (t : Tid) (op : Obj × Req (Val n C) × BitVec K.arch.w)
      (h : Step K x.s (some (.inv t op)) s') (ho : x.out op.1 = false) :
      XStep K x (some (.call (.inv t op))) { x with s := s' }
  | ret (x : XState K.arch.w n C) (s' : State K.arch.w n C) (t : Tid) (r : Res (Val n C) × BitVec K.arch.w)
      (h : Step K x.s (some (.ret t r)) s') : XStep K x (some (.call (.ret t r))) { x with s := s' }
  | take (x : XState K.arch.w n C) (o : Obj) (hp : x.s.top.pc = none) (ho : x.out o = false) (hx : ¬ x.s.refers o) :
      XStep K x (some (.take o (x.s.mem o))) { x with out := Function.update x.out o true }
  | raw (x : XState K.arch.w n C) (o : Obj) (v : Val n C) (hp : x.s.top.pc = none) (ho : x.out o = true) :
      XStep K x none { x with s := { x.s with mem := Function.update x.s.mem o v } }
  | put (x : XState K.arch.w n C) (o : Obj) (hp : x.s.top.pc = none) (ho : x.out o = true) :
      XStep K x (some (.put o (x.s.mem o))) { x with out := Function.update x.out o false }

/-- Runs from memory `m`, the objects in `out0` not constructed yet. -/
def XRuns (K : Cfg n C) (t : Tid) (m : Mem n C) (sr : BitVec K.arch.w) (win : Bool) (out0 : Obj → Bool)
    (h : List (Excl.Ev (Object.Ev (Obj × Req (Val n C) × BitVec K.arch.w) (Res (Val n C) × BitVec K.arch.w)) Obj (Val n C)))
    (x : XState K.arch.w n C) : Prop :=
  Exec (XStep K) ⟨init t m sr win, out0⟩ h x

/-! ## Proof internals -/

theorem act_ref {K : Cfg n C} {m sr win m' sr' win'} {pc pc' : Pc K.arch.w n C} (ha : Act K m sr win pc m' sr' win' pc') {o : Obj}
    (h : pc'.ref = some o) : pc.ref = some o := by
  cases ha <;> first | exact h | cases h

theorem act_local {K : Cfg n C} {m sr win m' sr' win'} {pc pc' : Pc K.arch.w n C} (ha : Act K m sr win pc m' sr' win' pc')
    (m₁ : Mem n C) (hm : ∀ o, pc.ref = some o → m₁ o = m o) :
    ∃ m₂, Act K m₁ sr win pc m₂ sr' win' pc' ∧ ∀ o, m₁ o = m o → m₂ o = m' o := by
  cases ha with
  | panic hf hn ho => exact ⟨m₁, .panic hf hn ho, fun _ h => h⟩
  | goNative hf ho => exact ⟨m₁, .goNative hf ho, fun _ h => h⟩
  | goDis hf ho => exact ⟨m₁, .goDis hf ho, fun _ h => h⟩
  | @nat o op _ hf =>
    have e := hm o rfl
    refine ⟨Function.update m₁ o ((force op).onCell (m₁ o)).1, ?_, fun o' h => ?_⟩
    · have := Act.nat (K := K) (m := m₁) (sr := sr) (win := win) (o := o) (op := op) hf
      rw [← e]; exact this
    · by_cases ho : o' = o
      · subst ho; simp [e]
      · simpa [Function.update_of_ne ho] using h
  | dis hi => exact ⟨m₁, .dis hi, fun _ h => h⟩
  | disRd h => exact ⟨m₁, .disRd h, fun _ h => h⟩
  | disWr => exact ⟨m₁, .disWr, fun _ h => h⟩
  | @rd o op p t buf _ i hf hb =>
    refine ⟨m₁, ?_, fun _ h => h⟩
    have := Act.rd (K := K) (m := m₁) (sr := sr) (win := win) (o := o) (op := op) (p := p) (t := t) i hf hb
    rw [hm o rfl] at this
    exact this
  | rdRes hf hx hr => exact ⟨m₁, .rdRes hf hx hr, fun _ h => h⟩
  | rdWr hf hx hr => exact ⟨m₁, .rdWr hf hx hr, fun _ h => h⟩
  | @wr o op p t new wrote r _ i hf hb =>
    have e := hm o rfl
    refine ⟨_, .wr i hf hb, fun o' h => ?_⟩
    by_cases ho : o' = o
    · subst ho; simp [e]
    · simpa [Function.update_of_ne ho] using h
  | wrRes hf hw => exact ⟨m₁, .wrRes hf hw, fun _ h => h⟩
  | res hi => exact ⟨m₁, .res hi, fun _ h => h⟩
  | resFin => exact ⟨m₁, .resFin, fun _ h => h⟩

theorem step_agree {K : Cfg n C} {s s' : State K.arch.w n C} {e} (st : Step K s e s') {out : Obj → Bool} {m : Mem n C}
    (hm : ∀ o, out o = false → m o = s.mem o) (hk : ∀ o, s.refers o → out o = false) :
    ∃ m', (∀ o, out o = false → m' o = s'.mem o) ∧ Step K { s with mem := m } e { s' with mem := m' } := by
  cases st with
  | irq t sr' h ht => exact ⟨m, hm, .irq { s with mem := m } t sr' h ht⟩
  | iret f rest h hb => exact ⟨m, hm, .iret { s with mem := m } f rest h hb⟩
  | user sr' win' h => exact ⟨m, hm, .user { s with mem := m } sr' win' h⟩
  | inv o q h => exact ⟨m, hm, .inv { s with mem := m } o q h⟩
  | ret r h => exact ⟨m, hm, .ret { s with mem := m } r h⟩
  | act pc m' sr' win' pc' h ha =>
    obtain ⟨m₂, h1, h2⟩ := act_local ha m fun o ho => hm o (hk o ⟨s.top, by simp, pc, h, ho⟩)
    exact ⟨m₂, fun o ho => h2 o (hm o ho), .act { s with mem := m } pc m₂ sr' win' pc' h h1⟩

theorem ref_keep {K : Cfg n C} {s s' : State K.arch.w n C} {e} (st : Step K s e s') {out : Obj → Bool}
    (ho : ∀ t op, e = some (.inv t op) → out op.1 = false) (hk : ∀ o, s.refers o → out o = false) :
    ∀ o, s'.refers o → out o = false := by
  rintro o ⟨f, hf, pc, hp, hr⟩
  cases st with
  | irq t sr' h ht =>
    simp only [List.mem_cons] at hf
    rcases hf with rfl | hf
    · cases hp
    · exact hk o ⟨f, by simpa using hf, pc, hp, hr⟩
  | iret g rest h hb =>
    refine hk o ⟨f, ?_, pc, hp, hr⟩
    rw [hb]; exact List.mem_cons_of_mem _ hf
  | user sr' win' h => exact hk o ⟨f, hf, pc, hp, hr⟩
  | inv o' q h =>
    rcases List.mem_cons.1 hf with rfl | hf
    · cases hp; cases hr; exact ho _ _ rfl
    · exact hk o ⟨f, List.mem_cons_of_mem _ hf, pc, hp, hr⟩
  | ret r h =>
    rcases List.mem_cons.1 hf with rfl | hf
    · cases hp
    · exact hk o ⟨f, List.mem_cons_of_mem _ hf, pc, hp, hr⟩
  | act pc0 m' sr' win' pc' h ha =>
    rcases List.mem_cons.1 hf with rfl | hf
    · cases hp; exact hk o ⟨s.top, by simp, pc0, h, act_ref ha hr⟩
    · exact hk o ⟨f, List.mem_cons_of_mem _ hf, pc, hp, hr⟩

/-- The invariant of runs with exclusive access. -/
def XInv (K : Cfg n C) (c0 : Mem n C)
    (h : List (Excl.Ev (Object.Ev (Obj × Req (Val n C) × BitVec K.arch.w) (Res (Val n C) × BitVec K.arch.w)) Obj (Val n C)))
    (x : XState K.arch.w n C) : Prop :=
  (∀ o, x.s.refers o → x.out o = false) ∧
  ∃ m a, (∀ o, x.out o = false → m o = x.s.mem o) ∧
    Exec (Excl.MemStep (spec K)) { obj := c0, th := fun _ => .idle } h a ∧ Rel K { x.s with mem := m } a

theorem xinv_step {K : Cfg n C} (hK : K.arch.Ok) {c0 : Mem n C} {h} {x x' : XState K.arch.w n C} {e} (H : XInv K c0 h x)
    (st : XStep K x e x') : XInv K c0 (h ++ e.toList) x' := by
  obtain ⟨h1, m, a, h2, h3, h4⟩ := H
  have prog : ∀ {e0 : Option (Object.Ev (Obj × Req (Val n C) × BitVec K.arch.w) (Res (Val n C) × BitVec K.arch.w))} {s'},
      Step K x.s e0 s' → (∀ t op, e0 = some (.inv t op) → x.out op.1 = false) →
      XInv K c0 (h ++ (e0.map Excl.Ev.call).toList) { x with s := s' } := by
    intro e0 s' hs ho
    obtain ⟨m', h5, h6⟩ := step_agree hs h2 h1
    obtain ⟨a', h7, h8⟩ := sim_step hK h6 h4
    refine ⟨ref_keep hs ho h1, m', a', h5, ?_, h7⟩
    rcases h8 with ⟨rfl, rfl | h8⟩ | ⟨ev, rfl, h8⟩
    · simpa using h3
    · simpa using Exec.tau h3 (.tau _ _ h8)
    · exact .ev h3 (.call _ _ _ h8)
  have hmem : x.s.top.pc = none → m = a.obj := fun hp => by
    have := h4.mem
    dsimp only at this
    rw [hp] at this; exact this
  cases st with
  | act s' hs => exact prog hs (fun t op e => by cases e)
  | inv s' t op hs ho => exact prog hs (fun t op e => by cases e; exact ho)
  | ret s' t r hs => exact prog hs (fun t op e => by cases e)
  | take o hp ho hx =>
    refine ⟨fun o' hr => ?_, m, a, fun o' ho' => ?_, ?_, h4⟩
    · have ne : o' ≠ o := fun e => by subst e; exact hx hr
      dsimp only; rw [Function.update_of_ne ne]; exact h1 o' hr
    · by_cases e : o' = o
      · subst e; simp at ho'
      · dsimp only at ho'; rw [Function.update_of_ne e] at ho'; exact h2 _ ho'
    · have hv : a.obj o = x.s.mem o := by rw [← h2 o ho, hmem hp]
      have := Exec.ev h3 (Excl.With.take _ o)
      rw [hv] at this
      exact this
  | raw o v hp ho =>
    refine ⟨h1, m, a, fun o' ho' => ?_, by simpa using h3, h4⟩
    have e : o' ≠ o := fun e => by subst e; rw [show x.out o' = false from ho'] at ho; cases ho
    simpa [Function.update_of_ne e] using h2 o' ho'
  | put o hp ho =>
    refine ⟨fun o' hr => ?_, Function.update m o (x.s.mem o), { a with obj := Function.update a.obj o (x.s.mem o) },
      fun o' ho' => ?_, .ev h3 (Excl.With.put _ o _), h4.nodup, h4.idle, h4.top, ?_, h4.win, h4.below⟩
    · have ne : o' ≠ o := fun e => by
        subst e
        have := h1 o' hr
        rw [ho] at this; cases this
      dsimp only; rw [Function.update_of_ne ne]; exact h1 o' hr
    · by_cases e : o' = o
      · subst e; simp
      · dsimp only at ho' ⊢; rw [Function.update_of_ne e] at ho' ⊢; exact h2 _ ho'
    · dsimp only; rw [hp, hmem hp]; exact rfl

theorem xinv {K : Cfg n C} (hK : K.arch.Ok) {t : Tid} {m : Mem n C} {sr : BitVec K.arch.w} {win : Bool} {out0 : Obj → Bool} {h}
    {x : XState K.arch.w n C} (hx : XRuns K t m sr win out0 h x) : XInv K m h x := by
  unfold XRuns at hx
  generalize hi : (⟨init t m sr win, out0⟩ : XState K.arch.w n C) = i at hx
  induction hx with
  | refl =>
    subst hi
    refine ⟨?_, m, ⟨m, fun _ => .idle⟩, fun _ _ => rfl, .refl _, by simp [init], fun _ _ => rfl, rfl, rfl, trivial, trivial⟩
    rintro o ⟨f, hf, pc, hp, -⟩
    simp only [init, List.mem_singleton] at hf
    subst hf; cases hp
  | tau _ st ih => simpa using xinv_step hK ih st
  | ev _ st ih => exact xinv_step hK ih st

end Verif.Irq
