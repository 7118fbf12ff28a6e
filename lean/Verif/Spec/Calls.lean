import Verif.Spec.Object
/-!
# Matching calls and returns in a history
-/
namespace Verif.Object

variable {C O R : Type}

/-- Is this an event of thread `t`? -/
def Ev.of {O R : Type} (t : Tid) : Ev O R → Prop
  | .inv u _ => u = t
  | .ret u _ => u = t

/-- In history `h`, thread `t` called `op`, and the next event of `t` is the return of `r`. -/
def Answered (h : List (Ev O R)) (t : Tid) (op : O) (r : R) : Prop :=
  ∃ h1 h2 h3, h = h1 ++ [.inv t op] ++ h2 ++ [.ret t r] ++ h3 ∧ ∀ e ∈ h2, ¬ e.of t

/-- In `h`, the last event of thread `t` is the call `op`. -/
def Open (h : List (Ev O R)) (t : Tid) (op : O) : Prop :=
  ∃ h1 h2, h = h1 ++ [.inv t op] ++ h2 ∧ ∀ e ∈ h2, ¬ e.of t

theorem Open.snoc {h : List (Ev O R)} {e t op} (ho : Open (h ++ [e]) t op) :
    (e = .inv t op) ∨ (Open h t op ∧ ¬ e.of t) := by
  obtain ⟨h1, h2, hh, hn⟩ := ho
  rcases List.eq_nil_or_concat h2 with rfl | ⟨l, b, rfl⟩
  · rw [List.append_nil] at hh
    have := List.append_inj_right' hh rfl
    simp only [List.cons.injEq, and_true] at this
    exact Or.inl this
  · right
    rw [List.concat_eq_append, ← List.append_assoc] at hh
    have h2 := List.append_inj_right' hh rfl
    have h3 := List.append_inj_left' hh rfl
    simp only [List.cons.injEq, and_true] at h2
    subst h2
    refine ⟨⟨h1, l, h3, fun x hx => hn x ?_⟩, hn e ?_⟩
    · rw [List.concat_eq_append]; exact List.mem_append_left _ hx
    · rw [List.concat_eq_append]; exact List.mem_append_right _ (by simp)

theorem Answered.snoc {h : List (Ev O R)} {e t op r} (ha : Answered (h ++ [e]) t op r) :
    Answered h t op r ∨ (e = .ret t r ∧ Open h t op) := by
  obtain ⟨h1, h2, h3, hh, hn⟩ := ha
  rcases List.eq_nil_or_concat h3 with rfl | ⟨l, b, rfl⟩
  · rw [List.append_nil] at hh
    have e1 := List.append_inj_right' hh rfl
    have e2 := List.append_inj_left' hh rfl
    simp only [List.cons.injEq, and_true] at e1
    exact Or.inr ⟨e1, h1, h2, e2, hn⟩
  · rw [List.concat_eq_append, ← List.append_assoc] at hh
    have e2 := List.append_inj_left' hh rfl
    exact Or.inl ⟨h1, h2, l, e2, hn⟩

/-- In a history the specification allows, every answer is one the specification gives for that
call, whatever the object state. -/
theorem answered_sem {S : Spec C O R} {c : C} {h : List (Ev O R)} {s}
    (hx : Exec (Step S) { obj := c, th := fun _ => .idle } h s) (P : O → R → Prop)
    (hP : ∀ op c c' r, S.sem op c c' r → P op r) :
    (∀ t op r, Answered h t op r → P op r) ∧
      (∀ t op, Open h t op → s.th t = .pending op ∨ ∃ r, s.th t = .done r ∧ P op r) := by
  generalize hi : ({ obj := c, th := fun _ => .idle } : State C O R) = i at hx
  induction hx with
  | refl =>
    refine ⟨?_, ?_⟩
    · rintro t op r ⟨h1, h2, h3, hh, _⟩; simp at hh
    · rintro t op ⟨h1, h2, hh, _⟩; simp at hh
  | tau _ st ih =>
    obtain ⟨i1, i2⟩ := ih
    refine ⟨i1, fun t op ho => ?_⟩
    have := i2 t op ho
    cases st with
    | commit u op' c' r h hs =>
      by_cases hu : t = u
      · subst hu
        right
        rcases this with hp | ⟨r', hp, _⟩
        · rw [hp] at h
          cases h
          exact ⟨r, Function.update_self .., hP _ _ _ _ hs⟩
        · rw [hp] at h; cases h
      · simpa only [Function.update_of_ne hu] using this
  | @ev _ _ e _ _ st ih =>
    obtain ⟨i1, i2⟩ := ih
    cases st with
    | inv u op' hidle =>
      refine ⟨fun t op r ha => ?_, fun t op ho => ?_⟩
      · rcases ha.snoc with h | ⟨h, _⟩
        · exact i1 t op r h
        · cases h
      · rcases ho.snoc with h | ⟨h, hn⟩
        · cases h; left; exact Function.update_self ..
        · have hu : t ≠ u := fun h => hn h.symm
          simpa only [Function.update_of_ne hu] using i2 t op h
    | ret u r' hd =>
      refine ⟨fun t op r ha => ?_, fun t op ho => ?_⟩
      · rcases ha.snoc with h | ⟨h, ho⟩
        · exact i1 t op r h
        · obtain ⟨rfl, rfl⟩ := Ev.ret.inj h
          rcases i2 _ op ho with hp | ⟨r'', hp, hP'⟩
          · rw [hp] at hd; cases hd
          · rw [hp] at hd; cases hd; exact hP'
      · rcases ho.snoc with h | ⟨h, hn⟩
        · cases h
        · have hu : t ≠ u := fun h => hn h.symm
          simpa only [Function.update_of_ne hu] using i2 t op h

end Verif.Object
