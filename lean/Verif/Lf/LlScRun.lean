import Verif.Lf.LlSc
import Verif.Lf.Run
/-!
# Executable schedules for code with load-linked / store-conditional

Used only by examples (see `Lf.Run`).  `spur` lets a store-conditional fail.
-/
set_option autoImplicit false
set_option linter.unusedSectionVars false
namespace Verif.Lf.LlSc
open Verif.Object

variable {V O R L K : Type} [DecidableEq V] [DecidableEq K]

/-- One step of thread `t`, executed. -/
def Code.go (c : Code V O R L) (t : Tid) (b : Bool) (s : State (K → Cell V) (K × L × Option Nat)) :
    Option (State (K → Cell V) (K × L × Option Nat)) :=
  match s.th t with
  | none => none
  | some (k, l, ρ) =>
    match c.next l with
    | .ret _ => none
    | .tau l' => some { mem := s.mem, th := Function.update s.th t (some (k, l', ρ)) }
    | .acc a f =>
      let p := a.exec b (s.mem k).val
      some { mem := Function.update s.mem k ⟨p.1, if p.1 = (s.mem k).val then (s.mem k).ver else (s.mem k).ver + 1⟩,
             th := Function.update s.th t (some (k, f p.2, ρ)) }
    | .ll f => some { mem := s.mem, th := Function.update s.th t (some (k, f (s.mem k).val, some (s.mem k).ver)) }
    | .sc v f =>
      if ρ = some (s.mem k).ver ∧ b = false then
        some { mem := Function.update s.mem k ⟨v, (s.mem k).ver + 1⟩,
               th := Function.update s.th t (some (k, f true, none)) }
      else some { mem := s.mem, th := Function.update s.th t (some (k, f false, none)) }

theorem Code.go_step {c : Code V O R L} {t b} {s s' : State (K → Cell V) (K × L × Option Nat)}
    (h : c.go t b s = some s') : Lf.Step (c.sys K) s none s' := by
  unfold Code.go at h
  cases hth : s.th t with
  | none => simp [hth] at h
  | some p =>
    obtain ⟨k, l, ρ⟩ := p
    cases hn : c.next l with
    | ret r => simp [hth, hn] at h
    | tau l' =>
      simp only [hth, hn, Option.some.injEq] at h
      subst h
      exact .act s t (k, l, ρ) (k, l', ρ) s.mem hth (.tau _ _ _ _ _ hn)
    | acc a f =>
      simp only [hth, hn, Option.some.injEq] at h
      subst h
      refine .act s t (k, l, ρ) _ _ hth (.acc _ _ _ _ a f _ _ _ hn (a.exec_sem b _) ?_)
      split
      · exact Or.inl ⟨by assumption, rfl⟩
      · exact Or.inr rfl
    | ll f =>
      simp only [hth, hn, Option.some.injEq] at h
      subst h
      exact .act s t (k, l, ρ) _ _ hth (.ll _ _ _ _ _ hn)
    | sc v f =>
      simp only [hth, hn] at h
      split at h
      · rename_i hc
        obtain ⟨rfl, -⟩ := hc
        simp only [Option.some.injEq] at h
        subst h
        exact .act s t (k, l, _) _ _ hth (.scOk _ _ _ _ _ hn)
      · simp only [Option.some.injEq] at h
        subst h
        exact .act s t (k, l, ρ) _ _ hth (.scFail _ _ _ _ _ _ hn)

/-- Run a schedule; `none` if some command is not possible. -/
def Code.run (c : Code V O R L) : List (Cmd K O) → State (K → Cell V) (K × L × Option Nat) →
    Option (List (Object.Ev (K × O) R) × State (K → Cell V) (K × L × Option Nat))
  | [], s => some ([], s)
  | .call t k op :: cs, s =>
    if (s.th t).isNone then
      (c.run cs { s with th := Function.update s.th t (some (k, c.start op, none)) }).map
        fun p => (.inv t (k, op) :: p.1, p.2)
    else none
  | .go t :: cs, s => (c.go t false s).bind fun s' => c.run cs s'
  | .spur t :: cs, s => (c.go t true s).bind fun s' => c.run cs s'
  | .ret t :: cs, s =>
    match s.th t with
    | none => none
    | some (_, l, _) =>
      match c.next l with
      | .ret r => (c.run cs { s with th := Function.update s.th t none }).map
          fun p => (.ret t r :: p.1, p.2)
      | _ => none

theorem Code.run_exec (c : Code V O R L) (cs : List (Cmd K O)) :
    ∀ (s : State (K → Cell V) (K × L × Option Nat)) (h s'), c.run cs s = some (h, s') →
      Exec (Lf.Step (c.sys K)) s h s' := by
  induction cs with
  | nil => intro s h s' e; simp [Code.run] at e; obtain ⟨rfl, rfl⟩ := e; exact .refl _
  | cons cmd cs ih =>
    intro s h s' e
    cases cmd with
    | call t k op =>
      simp only [Code.run] at e
      split at e
      · rename_i hn
        simp only [Option.map_eq_some_iff, Prod.mk.injEq, Prod.exists] at e
        obtain ⟨h', s'', e1, rfl, rfl⟩ := e
        refine Exec.cons ?_ (ih _ _ _ e1)
        exact .inv s t (k, op) (by simpa using hn)
      · simp at e
    | go t =>
      simp only [Code.run, Option.bind_eq_some_iff] at e
      obtain ⟨s1, h1, h2⟩ := e
      simpa using (Exec.one_tau (Code.go_step h1)).trans (ih _ _ _ h2)
    | spur t =>
      simp only [Code.run, Option.bind_eq_some_iff] at e
      obtain ⟨s1, h1, h2⟩ := e
      simpa using (Exec.one_tau (Code.go_step h1)).trans (ih _ _ _ h2)
    | ret t =>
      simp only [Code.run] at e
      cases hth : s.th t with
      | none => simp [hth] at e
      | some p =>
        obtain ⟨k, l, ρ⟩ := p
        cases hn : c.next l with
        | tau | acc | ll | sc => simp [hth, hn] at e
        | ret r =>
          simp only [hth, hn, Option.map_eq_some_iff, Prod.mk.injEq, Prod.exists] at e
          obtain ⟨h', s'', e1, rfl, rfl⟩ := e
          refine Exec.cons ?_ (ih _ _ _ e1)
          exact .ret s t (k, l, ρ) r hth (by simp [Code.sys, hn])

/-- The returns of a schedule's history, and the value of one object at its end; no thread runs at
first. -/
def Code.outcome (c : Code V O R L) (cs : List (Cmd K O)) (m : K → V) (k : K) :
    Option (List (Tid × R) × V) :=
  (c.run cs { mem := fun k => ⟨m k, 0⟩, th := fun _ => none }).map fun p =>
    (p.1.filterMap (fun | .ret t r => some (t, r) | .inv _ _ => none), (p.2.mem k).val)

theorem Code.outcome_runs {c : Code V O R L} {cs : List (Cmd K O)} {m : K → V} {k rs v}
    (e : c.outcome cs m k = some (rs, v)) : ∃ h s', Runs (c.sys K) (fun k => ⟨m k, 0⟩) h s' ∧ (s'.mem k).val = v ∧
      h.filterMap (fun | .ret t r => some (t, r) | .inv _ _ => none) = rs := by
  simp only [Code.outcome, Option.map_eq_some_iff, Prod.mk.injEq, Prod.exists] at e
  obtain ⟨h, s', e1, e2, e3⟩ := e
  exact ⟨h, s', Code.run_exec c cs _ _ _ e1, e3, e2⟩

end Verif.Lf.LlSc
