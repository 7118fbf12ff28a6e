import Verif.Fallback.Lin
/-!
# Loads are untorn (proof internals)
-/
namespace Verif
namespace Fallback
set_option linter.unusedSectionVars false
variable {V : Type} [DecidableEq V]

/-- An event of thread `t`. -/
def Ev.by (t : Tid) : Ev V → Prop
  | .inv u _ _ => u = t
  | .ret u _ => u = t

namespace Cfg
variable {c : Cfg V}

/-- A moment of the execution segment from `s2` to `s3` at which object `o` holds `v`. -/
def Moment (c : Cfg V) (s2 : State V c.W) (h : List (Ev V)) (s3 : State V c.W) (o : Obj) (v : V) :
    Prop :=
  ∃ h1 h2 sm, h = h1 ++ h2 ∧ Exec c.StepB s2 h1 sm ∧ Exec c.StepB sm h2 s3 ∧
    ∀ i, i < c.n o → sm.mem (.chunk o i) = c.split o v i

theorem Moment.tau {s2 s3 s4 : State V c.W} {h : List (Ev V)} {o : Obj} {v : V}
    (m : Moment c s2 h s3 o v) (st : c.StepB s3 none s4) : Moment c s2 h s4 o v := by
  obtain ⟨h1, h2, sm, e, x, y, hm⟩ := m
  exact ⟨h1, h2, sm, e, x, .tau y st, hm⟩

theorem Moment.ev {s2 s3 s4 : State V c.W} {h : List (Ev V)} {e : Ev V} {o : Obj} {v : V}
    (m : Moment c s2 h s3 o v) (st : c.StepB s3 (some e) s4) :
    Moment c s2 (h ++ [e]) s4 o v := by
  obtain ⟨h1, h2, sm, rfl, x, y, hm⟩ := m
  exact ⟨h1, h2 ++ [e], sm, by simp, x, .ev y st, hm⟩

theorem moment_inv (ok : c.Sound) {t : Tid} {o : Obj} {ord : MemOrd} {s2 s3 : State V c.W}
    {h : List (Ev V)} (x : Exec c.StepB s2 h s3) (hno : ∀ e ∈ h, ¬ Ev.by t e)
    {a2 : Revisable.State V} {owner2 : Nat → Option Tid} (R : c.Rel s2 a2 owner2)
    (cf : CallsFit s2)
    (ha : a2.th t = .pending o (.load ord) none) :
    ∃ a owner, c.Rel s3 a owner ∧ CallsFit s3 ∧ (∃ y, a.th t = .pending o (.load ord) y) ∧
      ∀ o' v, final (a.th t) = some (o', v) → Moment c s2 h s3 o' v := by
  induction x with
  | refl =>
    exact ⟨a2, owner2, R, cf, ⟨_, ha⟩, fun o' v hf => by rw [ha] at hf; simp [final] at hf⟩
  | @tau h s' s'' x st ih =>
    obtain ⟨a, owner, R1, cf1, ⟨y, hy⟩, hm⟩ := ih hno
    obtain ⟨a', owner', -, R2, hf1, hf2⟩ := sim_step ok R1 cf1 st.2 st.1
    refine ⟨a', owner', R2, cf1.step st.1, ?_, ?_⟩
    · rcases hf2 t o ord y hy with h1 | ⟨r, h1⟩
      · exact h1
      · cases h1
    · intro o' v hf
      rcases hf1 t o' v hf with h1 | h1
      · exact (hm o' v h1).tau st
      · exact ⟨h, [], s'', by simp, .tau x st, .refl _, h1⟩
  | @ev h s' e s'' x st ih =>
    obtain ⟨a, owner, R1, cf1, ⟨y, hy⟩, hm⟩ := ih (fun e' he => hno e' (by simp [he]))
    obtain ⟨a', owner', -, R2, hf1, hf2⟩ := sim_step ok R1 cf1 st.2 st.1
    have hnt : ¬ Ev.by t e := hno e (by simp)
    refine ⟨a', owner', R2, cf1.step st.1, ?_, ?_⟩
    · rcases hf2 t o ord y hy with h1 | ⟨r, h1⟩
      · exact h1
      · injection h1 with h1; subst h1; exact absurd rfl hnt
    · intro o' v hf
      rcases hf1 t o' v hf with h1 | h1
      · exact (hm o' v h1).ev st
      · exact ⟨h ++ [e], [], s'', by simp, .ev x st, .refl _, h1⟩

end Cfg
end Fallback
end Verif
