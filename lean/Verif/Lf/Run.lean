import Verif.Lf.Access
/-!
# Executable schedules for `Code`

Used only by examples: a schedule is turned into an execution, so that the theorems about all
executions are seen to apply to concrete, non-trivial ones.
-/
set_option linter.unusedSectionVars false
namespace Verif.Lf
open Verif.Object

variable {V W O R L K : Type} [DecidableEq V] [DecidableEq K]

/-- A scheduler command: a thread calls, makes its next step (`spur`: let a weak compare-exchange
fail spuriously), or returns. -/
inductive Cmd (K O : Type) where
  | call (t : Tid) (k : K) (op : O)
  | go (t : Tid)
  | spur (t : Tid)
  | ret (t : Tid)

/-- The access, executed. -/
def Acc.exec (a : Acc V) (spur : Bool) (x : V) : V × Res V :=
  match a with
  | .op o => o.onCell x
  | .casWeak cur new s f =>
    if spur && (Op.cas cur new s f).ordOk then (x, .err x) else (Op.cas cur new s f).onCell x
  | .peek => (x, .val x)

theorem Acc.exec_sem (a : Acc V) (b : Bool) (x : V) : a.sem x (a.exec b x).1 (a.exec b x).2 := by
  cases a with
  | op o => rfl
  | casWeak cur new s f =>
    simp only [Acc.sem, Acc.exec]
    by_cases h : (b && (Op.cas cur new s f).ordOk) = true
    · rw [if_pos h]
      simp only [Bool.and_eq_true] at h
      exact Or.inr ⟨h.2, rfl, rfl⟩
    · rw [if_neg h]; exact Or.inl rfl
  | peek => exact ⟨rfl, _, rfl⟩

/-- One step of thread `t`, executed. -/
def Code.go (c : Code V O R L) (t : Tid) (b : Bool) (s : State (K → V) (K × L)) :
    Option (State (K → V) (K × L)) :=
  match s.th t with
  | none => none
  | some (k, l) =>
    match c.next l with
    | .ret _ => none
    | .tau l' => some { mem := s.mem, th := Function.update s.th t (some (k, l')) }
    | .acc a f => some { mem := Function.update s.mem k (a.exec b (s.mem k)).1,
                         th := Function.update s.th t (some (k, f (a.exec b (s.mem k)).2)) }

theorem Code.go_step {c : Code V O R L} {t b} {s s' : State (K → V) (K × L)}
    (h : c.go t b s = some s') : Step (c.sys K) s none s' := by
  unfold Code.go at h
  cases hth : s.th t with
  | none => simp [hth] at h
  | some p =>
    obtain ⟨k, l⟩ := p
    cases hn : c.next l with
    | ret r => simp [hth, hn] at h
    | tau l' =>
      simp [hth, hn] at h
      subst h
      exact .act s t (k, l) (k, l') s.mem hth (Or.inl ⟨l', hn, rfl, rfl⟩)
    | acc a f =>
      simp [hth, hn] at h
      subst h
      exact .act s t (k, l) _ _ hth (Or.inr ⟨a, f, _, _, hn, a.exec_sem b _, rfl, rfl⟩)

/-- Run a schedule; `none` if some command is not possible. -/
def Code.run (c : Code V O R L) : List (Cmd K O) → State (K → V) (K × L) →
    Option (List (Object.Ev (K × O) R) × State (K → V) (K × L))
  | [], s => some ([], s)
  | .call t k op :: cs, s =>
    if (s.th t).isNone then
      (c.run cs { s with th := Function.update s.th t (some (k, c.start op)) }).map
        fun p => (.inv t (k, op) :: p.1, p.2)
    else none
  | .go t :: cs, s => (c.go t false s).bind fun s' => c.run cs s'
  | .spur t :: cs, s => (c.go t true s).bind fun s' => c.run cs s'
  | .ret t :: cs, s =>
    match s.th t with
    | none => none
    | some (_, l) =>
      match c.next l with
      | .ret r => (c.run cs { s with th := Function.update s.th t none }).map
          fun p => (.ret t r :: p.1, p.2)
      | _ => none

theorem Exec.cons {S E : Type} {step : S → Option E → S → Prop} {a b z : S} {e : E} {h : List E}
    (st : step a (some e) b) (x : Exec step b h z) : Exec step a (e :: h) z := by
  have := (Exec.ev (.refl a) st).trans x
  simpa using this

theorem Code.run_exec (c : Code V O R L) (cs : List (Cmd K O)) :
    ∀ (s : State (K → V) (K × L)) (h s'), c.run cs s = some (h, s') →
      Exec (Step (c.sys K)) s h s' := by
  induction cs with
  | nil => intro s h s' e; simp [Code.run] at e; obtain ⟨rfl, rfl⟩ := e; exact .refl _
  | cons cmd cs ih =>
    intro s h s' e
    cases cmd with
    | call t k op =>
      simp only [Code.run] at e
      split at e
      · rename_i hn
        simp only [Option.map_eq_some_iff, Prod.mk.injEq, Prod.exists] at e
        obtain ⟨h', s'', e1, rfl, rfl⟩ := e
        refine Exec.cons ?_ (ih _ _ _ e1)
        exact .inv s t (k, op) (by simpa using hn)
      · simp at e
    | go t =>
      simp only [Code.run, Option.bind_eq_some_iff] at e
      obtain ⟨s1, h1, h2⟩ := e
      simpa using (Exec.one_tau (Code.go_step h1)).trans (ih _ _ _ h2)
    | spur t =>
      simp only [Code.run, Option.bind_eq_some_iff] at e
      obtain ⟨s1, h1, h2⟩ := e
      simpa using (Exec.one_tau (Code.go_step h1)).trans (ih _ _ _ h2)
    | ret t =>
      simp only [Code.run] at e
      cases hth : s.th t with
      | none => simp [hth] at e
      | some p =>
        obtain ⟨k, l⟩ := p
        cases hn : c.next l with
        | tau l' => simp [hth, hn] at e
        | acc a f => simp [hth, hn] at e
        | ret r =>
          simp only [hth, hn, Option.map_eq_some_iff, Prod.mk.injEq, Prod.exists] at e
          obtain ⟨h', s'', e1, rfl, rfl⟩ := e
          refine Exec.cons ?_ (ih _ _ _ e1)
          exact .ret s t (k, l) r hth (by simp [Code.sys, hn])

/-- All threads idle. -/
def idle (m : K → V) : State (K → V) (K × L) := { mem := m, th := fun _ => none }

theorem Code.run_runs {c : Code V O R L} {cs : List (Cmd K O)} {m : K → V} {h s'}
    (e : c.run cs (idle m) = some (h, s')) : Runs (c.sys K) m h s' :=
  Code.run_exec c cs _ _ _ e

/-- The returns of a schedule's history, and the value of one cell at its end. -/
def Code.outcome (c : Code V O R L) (cs : List (Cmd K O)) (m : K → V) (k : K) :
    Option (List (Tid × R) × V) :=
  (c.run cs (idle m)).map fun p => (p.1.filterMap (fun | .ret t r => some (t, r) | .inv _ _ => none), p.2.mem k)

theorem Code.outcome_runs {c : Code V O R L} {cs : List (Cmd K O)} {m : K → V} {k rs v}
    (e : c.outcome cs m k = some (rs, v)) : ∃ h s', Runs (c.sys K) m h s' ∧ s'.mem k = v ∧
      h.filterMap (fun | .ret t r => some (t, r) | .inv _ _ => none) = rs := by
  simp only [Code.outcome, Option.map_eq_some_iff, Prod.mk.injEq, Prod.exists] at e
  obtain ⟨h, s', e1, e2, e3⟩ := e
  exact ⟨h, s', Code.run_runs e1, e3, e2⟩

end Verif.Lf
