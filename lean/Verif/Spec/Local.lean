import Verif.Spec.Atomic
/-!
# Restricting a history to some of the objects
-/
namespace Verif
variable {V : Type} [DecidableEq V]

/-- One step of the restriction of a history to the calls on the objects with `P`: the flag remembers, per
thread, whether its last call was on one of them. -/
def restrictStep (P : Obj → Prop) [DecidablePred P] (p : (Tid → Bool) × List (Ev V)) (e : Ev V) :
    (Tid → Bool) × List (Ev V) :=
  match e with
  | .inv t o' op =>
    if P o' then (Function.update p.1 t true, p.2 ++ [.inv t o' op])
    else (Function.update p.1 t false, p.2)
  | .ret t r => if p.1 t then (p.1, p.2 ++ [.ret t r]) else p

/-- The sub-history of the calls on the objects with `P` and their returns. -/
def restrictBy (P : Obj → Prop) [DecidablePred P] (h : List (Ev V)) : List (Ev V) :=
  (h.foldl (restrictStep P) (fun _ => false, [])).2

/-- The sub-history of the calls on object `o` and their returns. -/
def restrict (o : Obj) (h : List (Ev V)) : List (Ev V) := restrictBy (· = o) h

namespace Atomic

/-- A linearizable history stays linearizable when restricted to the calls on some objects. -/
theorem Linearizable.restrictBy {cells : Obj → V} {h : List (Ev V)} (P : Obj → Prop) [DecidablePred P]
    (x : Linearizable cells h) : Linearizable cells (restrictBy P h) := by
  obtain ⟨s, x⟩ := x
  suffices H : ∃ s', Exec Step (init cells) (h.foldl (restrictStep P) (fun _ => false, [])).2 s' ∧
      (∀ o, P o → s'.cell o = s.cell o) ∧
      (∀ t, (h.foldl (restrictStep P) (fun _ => false, [])).1 t = true → s'.th t = s.th t) ∧
      (∀ t, (h.foldl (restrictStep P) (fun _ => false, [])).1 t = false → s'.th t = .idle) ∧
      (∀ t o' op, s.th t = .pending o' op →
        ((h.foldl (restrictStep P) (fun _ => false, [])).1 t = true ↔ P o')) by
    obtain ⟨s', hx, -⟩ := H
    exact ⟨s', hx⟩
  generalize hi : init cells = i at x
  induction x with
  | refl =>
    subst hi
    exact ⟨init cells, .refl _, fun _ _ => rfl, by simp, by simp [init], by simp [init]⟩
  | @tau h s1 s2 _ st ih =>
    obtain ⟨s', hx, hc, h1, h2, h3⟩ := ih
    cases st with
    | commit t o' op hp =>
      by_cases e : (h.foldl (restrictStep P) (fun _ => false, [])).1 t = true
      · have hP := (h3 t o' op hp).1 e
        have hp' := h1 t e
        rw [hp] at hp'
        refine ⟨_, .tau hx (Step.commit s' t o' op hp'), ?_, ?_, ?_, ?_⟩
        · intro o ho
          by_cases eo : o = o'
          · subst eo; simp [hc o ho]
          · simp [Function.update_of_ne eo, hc o ho]
        · intro u hu
          by_cases eu : u = t
          · subst eu; simp [hc o' hP]
          · simp [Function.update_of_ne eu, h1 u hu]
        · intro u hu
          by_cases eu : u = t
          · subst eu; rw [e] at hu; cases hu
          · simp [Function.update_of_ne eu, h2 u hu]
        · intro u o' op' hu
          by_cases eu : u = t
          · subst eu; simp at hu
          · simp only [Function.update_of_ne eu] at hu; exact h3 u o' op' hu
      · have hne : ¬ P o' := fun h => e ((h3 t o' op hp).2 h)
        refine ⟨s', hx, ?_, ?_, h2, ?_⟩
        · intro o ho
          have eo : o ≠ o' := by rintro rfl; exact hne ho
          simp [Function.update_of_ne eo, hc o ho]
        · intro u hu
          have eu : u ≠ t := by rintro rfl; exact e hu
          simp [Function.update_of_ne eu, h1 u hu]
        · intro u o' op' hu
          by_cases eu : u = t
          · subst eu; simp at hu
          · simp only [Function.update_of_ne eu] at hu; exact h3 u o' op' hu
  | @ev h s1 ev s2 _ st ih =>
    obtain ⟨s', hx, hc, h1, h2, h3⟩ := ih
    generalize hf : h.foldl (restrictStep P) (fun _ => false, []) = p at *
    simp only [List.foldl_append, List.foldl_cons, List.foldl_nil, hf]
    cases st with
    | inv t o' op hidle =>
      simp only [restrictStep]
      by_cases e : P o'
      · rw [if_pos e]
        have hid' : s'.th t = .idle := by
          cases hp : p.1 t with
          | true => rw [h1 t hp, hidle]
          | false => exact h2 t hp
        refine ⟨_, .ev hx (Step.inv s' t o' op hid'), hc, ?_, ?_, ?_⟩
        · intro u hu
          by_cases eu : u = t
          · subst eu; simp
          · simp only [Function.update_of_ne eu] at hu ⊢; exact h1 u hu
        · intro u hu
          by_cases eu : u = t
          · subst eu; simp at hu
          · simp only [Function.update_of_ne eu] at hu ⊢; exact h2 u hu
        · intro u o2 op' hu
          by_cases eu : u = t
          · subst eu; simp only [Function.update_self] at hu ⊢
            injection hu with e1 e2; subst e1; simp [e]
          · simp only [Function.update_of_ne eu] at hu ⊢; exact h3 u o2 op' hu
      · rw [if_neg e]
        have hid' : s'.th t = .idle := by
          cases hp : p.1 t with
          | true => rw [h1 t hp, hidle]
          | false => exact h2 t hp
        refine ⟨s', hx, hc, ?_, ?_, ?_⟩
        · intro u hu
          by_cases eu : u = t
          · subst eu; simp at hu
          · simp only [Function.update_of_ne eu] at hu ⊢; exact h1 u hu
        · intro u hu
          by_cases eu : u = t
          · subst eu; exact hid'
          · simp only [Function.update_of_ne eu] at hu; exact h2 u hu
        · intro u o2 op' hu
          by_cases eu : u = t
          · subst eu; simp only [Function.update_self] at hu ⊢
            injection hu with e1 e2; subst e1; simp [e]
          · simp only [Function.update_of_ne eu] at hu ⊢; exact h3 u o2 op' hu
    | ret t r hd =>
      simp only [restrictStep]
      by_cases e : p.1 t = true
      · rw [if_pos e]
        have hd' : s'.th t = .done r := by rw [h1 t e, hd]
        refine ⟨_, .ev hx (Step.ret s' t r hd'), hc, ?_, ?_, ?_⟩
        · intro u hu
          by_cases eu : u = t
          · subst eu; simp
          · simp only [Function.update_of_ne eu]; exact h1 u hu
        · intro u hu
          by_cases eu : u = t
          · subst eu; simp
          · simp only [Function.update_of_ne eu]; exact h2 u hu
        · intro u o2 op' hu
          by_cases eu : u = t
          · subst eu; simp at hu
          · simp only [Function.update_of_ne eu] at hu; exact h3 u o2 op' hu
      · rw [if_neg e]
        refine ⟨s', hx, hc, ?_, h2, ?_⟩
        · intro u hu
          have eu : u ≠ t := by rintro rfl; exact e hu
          simp only [Function.update_of_ne eu]; exact h1 u hu
        · intro u o2 op' hu
          by_cases eu : u = t
          · subst eu; simp at hu
          · simp only [Function.update_of_ne eu] at hu; exact h3 u o2 op' hu

/-- ... and to the calls on one object. -/
theorem Linearizable.restrict {cells : Obj → V} {h : List (Ev V)} (o : Obj)
    (x : Linearizable cells h) : Linearizable cells (Verif.restrict o h) := x.restrictBy _

end Atomic
end Verif
