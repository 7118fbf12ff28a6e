import Verif.Fallback.Config
import Verif.Fallback.Count
/-!
# A scheduler for concrete runs

Used only to exhibit concrete executions of the model (non-vacuity examples, counterexamples).
-/
namespace Verif
namespace Fallback
variable {V : Type} [DecidableEq V]

/-- One scheduling decision: a thread calls, performs its next shared action, or returns. -/
inductive Cmd (V : Type) where
  | call (t : Tid) (o : Obj) (op : Op V)
  | go (t : Tid)
  | ret (t : Tid)

namespace Cfg
variable (c : Cfg V)

/-- Perform one decision, if enabled. -/
def exec1 (s : State V c.W) : Cmd V → Option (Option (Ev V) × State V c.W)
  | .call t o op =>
    match s.pc t with
    | .idle => some (some (.inv t o op),
        { s with pc := Function.update s.pc t (c.start ⟨o, op⟩)
                 start := Function.update s.start t (s.ver (c.lockOf o)) })
    | _ => none
  | .go t =>
    match c.act (s.pc t) with
    | some a => some (none, c.doAct s t a)
    | none => none
  | .ret t =>
    match s.pc t with
    | .ret r => some (some (.ret t r), { s with pc := Function.update s.pc t .idle })
    | _ => none

/-- Perform a whole schedule, returning the history and the final state. -/
def run (s : State V c.W) : List (Cmd V) → Option (List (Ev V) × State V c.W)
  | [] => some ([], s)
  | d :: ds =>
    match c.exec1 s d with
    | none => none
    | some (e, s') =>
      match run s' ds with
      | none => none
      | some (h, s'') => some (e.toList ++ h, s'')

/-- The calls of the schedule are well typed. -/
def _root_.Verif.Fallback.Cmd.Fits (c : Cfg V) : Cmd V → Prop
  | .call _ o op => op.Fits (c.fits o)
  | _ => True

theorem Ok.cmds {c : Cfg V} (ok : c.Ok) (ds : List (Cmd V)) : ∀ d ∈ ds, d.Fits c := by
  intro d _
  cases d
  case call => exact ok.fits _ _
  all_goals trivial

theorem exec1_sound {s s' : State V c.W} {d : Cmd V} {e : Option (Ev V)}
    (hf : d.Fits c) (h : c.exec1 s d = some (e, s')) : c.Step s e s' := by
  cases d with
  | call t o op =>
    simp only [exec1] at h
    split at h
    · rename_i hi; injection h with h; injection h with h1 h2; subst h1; subst h2
      exact .inv s t o op hi hf
    · cases h
  | go t =>
    simp only [exec1] at h
    split at h
    · rename_i a ha; injection h with h; injection h with h1 h2; subst h1; subst h2
      exact .act s t a ha
    · cases h
  | ret t =>
    simp only [exec1] at h
    split at h
    · rename_i r hr; injection h with h; injection h with h1 h2; subst h1; subst h2
      exact .ret s t r hr
    · cases h

theorem run_sound {ds : List (Cmd V)} (hf : ∀ d ∈ ds, d.Fits c) : ∀ {s s' : State V c.W} {h : List (Ev V)},
    c.run s ds = some (h, s') → Exec c.Step s h s' := by
  induction ds with
  | nil => intro s s' h hr; simp only [run] at hr; injection hr with hr; injection hr with h1 h2
           subst h1; subst h2; exact .refl _
  | cons d ds ih =>
    intro s s' h hr
    simp only [run] at hr
    split at hr
    · cases hr
    · rename_i e s1 h1
      split at hr
      · cases hr
      · rename_i h2 s2 h3
        injection hr with hr; injection hr with e1 e2; subst e1; subst e2
        have x := ih (fun d hd => hf d (by simp [hd])) h3
        have st := c.exec1_sound (hf d (by simp)) h1
        cases e with
        | none => simpa using (Exec.one_tau st).trans x
        | some e => exact (Exec.ev (.refl _) st).trans x

/-- The history of a schedule (empty if it is not enabled). -/
def hist (s : State V c.W) (ds : List (Cmd V)) : List (Ev V) :=
  ((c.run s ds).map (·.1)).getD []

/-- The final state of a schedule (the start state if it is not enabled). -/
def final! (s : State V c.W) (ds : List (Cmd V)) : State V c.W :=
  ((c.run s ds).map (·.2)).getD s

theorem run_exec (s : State V c.W) (ds : List (Cmd V)) (hf : ∀ d ∈ ds, d.Fits c) (h : (c.run s ds).isSome = true) :
    Exec c.Step s (c.hist s ds) (c.final! s ds) := by
  obtain ⟨⟨h1, s1⟩, e⟩ := Option.isSome_iff_exists.1 h
  have := c.run_sound hf e
  simpa [hist, final!, e] using this

/-- A schedule run from a reachable state, with few calls overall, is a bounded execution. -/
theorem run_execB {cells : Obj → V} {v0 : Nat → Nat} {ext : Nat → BitVec c.W} :
    ∀ (ds : List (Cmd V)) (_ : ∀ d ∈ ds, d.Fits c) {s : State V c.W} {h : List (Ev V)},
      Exec c.Step (c.init cells v0 ext) h s → (c.run s ds).isSome = true →
      calls (h ++ c.hist s ds) < c.maxOverlap →
      Exec c.StepB s (c.hist s ds) (c.final! s ds) := by
  intro ds
  induction ds with
  | nil => intro _ s h _ _ _; exact .refl _
  | cons d ds ih =>
    intro hf s h x hr hb
    cases h1 : c.exec1 s d with
    | none => simp [run, h1] at hr
    | some p =>
      obtain ⟨e, s1⟩ := p
      have hr2 : (c.run s1 ds).isSome = true := by
        cases h2 : c.run s1 ds with
        | none => simp [run, h1, h2] at hr
        | some q => rfl
      obtain ⟨⟨h2, s2⟩, h3⟩ := Option.isSome_iff_exists.1 hr2
      have hh : c.hist s (d :: ds) = e.toList ++ c.hist s1 ds := by
        simp [hist, run, h1, h3]
      have hf' : c.final! s (d :: ds) = c.final! s1 ds := by
        simp [final!, run, h1, h3]
      have st := c.exec1_sound (hf d (by simp)) h1
      have ih := fun {s h} => ih (fun d hd => hf d (by simp [hd])) (s := s) (h := h)
      rw [hh] at hb ⊢
      rw [hf']
      have hb0 : calls h < c.maxOverlap := by
        refine lt_of_le_of_lt ?_ hb
        simp [calls]
      obtain ⟨T, C⟩ := ci_exec x
      have stB : c.StepB s e s1 := ⟨st, C.noWrap hb0⟩
      cases e with
      | none => simpa using (Exec.one_tau stB).trans (ih (.tau x st) hr2 (by simpa using hb))
      | some e =>
        exact (Exec.ev (.refl _) stB).trans (ih (.ev x st) hr2 (by simpa using hb))

end Cfg
end Fallback
end Verif
