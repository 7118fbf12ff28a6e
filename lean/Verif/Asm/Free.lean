import Verif.Asm.Points
/-!
# Lock-freedom of assembly blocks
-/
set_option autoImplicit false
set_option linter.unusedSectionVars false
namespace Verif.Asm
open Verif.Object Verif.Lf

variable {C ι St V W R K : Type} [DecidableEq V] [DecidableEq K]

/-- What is needed of one call besides `Points`. -/
structure Free {A : Blocks C ι St V W R} {S : Spec V C (Option R)} {c : C} (X : Points A S c) : Prop where
  once : ∀ pc s e, X.P pc s e → ∃ i, (A.prog c)[pc]? = some i ∧ Once A c pc (A.sem c i s)
  stops : ∀ pc s e, X.P pc s e → ∀ ρ x, Stops A c pc s ρ x

theorem Correct.free {A : Blocks C ι St V W R} {S : Spec V C (Option R)} {c : C} (X : Correct A S c) :
    Free X.toPoints := ⟨X.once, X.stops⟩

section
variable {A : Blocks C ι St V W R} {S : Spec V C (Option R)}

theorem Rest.adv {c : C} {pc : Nat} {s : St} (h : Rest A c pc s) (hf : Option W) (n : Nat) :
    ∃ l' r, A.code.Adv ⟨c, pc, hf, n, s⟩ l' ∧ A.code.next l' = .ret r := by
  obtain ⟨pc', s', h1, h2⟩ := h
  exact ⟨_, some (A.out c s'), h1.adv hf n, by show A.next _ = _; simp [Blocks.next, h2]⟩

/-- The call only has to return. -/
def Done (A : Blocks C ι St V W R) (l : Loc C St W) : Prop := ∃ l' r, A.code.Adv l l' ∧ A.code.next l' = .ret r

/-- The call is on its way to an access or to its end. -/
def Way (X : ∀ c, Points A S c) (l : Loc C St W) : Prop := (∃ l' e, A.code.Adv l l' ∧ (X l'.call).pend l' e) ∨ Done A l

theorem Done.tau {l l1 : Loc C St W} (h : Done A l) (e : A.code.next l = .tau l1) : Done A l1 := by
  obtain ⟨l', r, h1, h2⟩ := h
  cases h1 with
  | refl => rw [e] at h2; cases h2
  | head e' t => rw [e] at e'; cases e'; exact ⟨l', r, t, h2⟩

theorem Done.only {l : Loc C St W} (h : Done A l) : (∃ l1, A.code.next l = .tau l1) ∨ ∃ r, A.code.next l = .ret r := by
  obtain ⟨l', r, h1, h2⟩ := h
  cases h1 with
  | refl => exact .inr ⟨r, h2⟩
  | head e' t => exact .inl ⟨_, e'⟩

theorem Way.tau {X : ∀ c, Points A S c} {l l1 : Loc C St W} (h : Way X l) (e : A.code.next l = .tau l1) : Way X l1 := by
  rcases h with ⟨l', e', h1, h2⟩ | h
  · cases h1 with
    | refl => exact absurd e (((X l.call).local_.nt l e' h2).1 l1)
    | head e' t => rw [e] at e'; cases e'; exact .inl ⟨l', _, t, h2⟩
  · exact .inr (h.tau e)

theorem Way.at_ {X : ∀ c, Points A S c} {l : Loc C St W} (h : Way X l) (e : ∀ l1, A.code.next l ≠ .tau l1)
    (e' : ∀ r, A.code.next l ≠ .ret r) : ∃ e, (X l.call).pend l e := by
  rcases h with ⟨l', e2, h1, h2⟩ | ⟨l', r, h1, h2⟩
  · cases h1 with
    | refl => exact ⟨e2, h2⟩
    | head e3 t => exact absurd e3 (e _)
  · cases h1 with
    | refl => exact absurd h2 (e' r)
    | head e3 t => exact absurd e3 (e _)

theorem Goes.way {X : ∀ c, Points A S c} {c : C} {g : Prop} {x x' : V} {e : Option (Option R)} {l : Loc C St W}
    (h : Goes A S c (X c).pend (X c).known g x x' e l) : Way X l := by
  rcases h with ⟨l', e', h1, h2, _⟩ | ⟨l', r, h1, h2, _⟩
  · have hc := h2.1
    refine .inl ⟨l', e', h1, ?_⟩
    rw [hc]; exact h2
  · exact .inr ⟨l', r, h1, h2⟩

theorem Points.atSc {X : ∀ c, Points A S c} (F : ∀ c, Free (X c)) {l : Loc C St W} {e : Option (Option R)}
    (h : (X l.call).pend l e) {v : V} {f : Bool → Loc C St W} (hn : A.code.next l = .sc v f) : Done A (f true) := by
  obtain ⟨c, pc, hf, n, s⟩ := l
  obtain ⟨-, hP, -⟩ := h
  simp only at hP
  obtain ⟨i, hi, hok⟩ := (X c).ok _ _ _ hP
  obtain ⟨i', hi', ho⟩ := (F c).once _ _ _ hP
  rw [hi] at hi'; cases hi'
  change A.next _ = _ at hn
  simp only [Blocks.next, hi] at hn
  cases hs : A.sem c i s with
  | go | br | fault => simp [hs, Ok] at hok
  | acc | ll => simp [hs] at hn
  | ll2 word k => cases hf <;> simp [hs] at hn
  | sc v' k =>
    simp only [hs, LlSc.Next.sc.injEq] at hn
    obtain ⟨rfl, rfl⟩ := hn
    rw [hs] at ho
    exact Rest.adv ho hf n

theorem Points.atAcc {X : ∀ c, Points A S c} (F : ∀ c, Free (X c)) {l : Loc C St W} {e : Option (Option R)}
    (h : (X l.call).pend l e) {a : Lf.Acc V} {f : Res V → Loc C St W} (hn : A.code.next l = .acc a f)
    {x x' : V} {r : Res V} (hx : a.sem x x' r) : a.Reads r ∨ Done A (f r) := by
  obtain ⟨c, pc, hf, n, s⟩ := l
  obtain ⟨-, hP, -⟩ := h
  simp only at hP
  obtain ⟨i, hi, hok⟩ := (X c).ok _ _ _ hP
  obtain ⟨i', hi', ho⟩ := (F c).once _ _ _ hP
  rw [hi] at hi'; cases hi'
  change A.next _ = _ at hn
  simp only [Blocks.next, hi] at hn
  cases hs : A.sem c i s with
  | go | br | fault => simp [hs, Ok] at hok
  | ll | sc => simp [hs] at hn
  | ll2 word k =>
    cases hf with
    | none => simp [hs] at hn
    | some w =>
      simp only [hs, LlSc.Next.acc.injEq] at hn
      obtain ⟨rfl, rfl⟩ := hn
      exact .inl trivial
  | acc a' k =>
    simp only [hs, LlSc.Next.acc.injEq] at hn
    obtain ⟨rfl, rfl⟩ := hn
    rw [hs] at ho
    exact (ho x x' r hx).imp id fun h => Rest.adv h hf n

theorem Cont.stops {c : C} {X : Points A S c} (F : Free X) {g : Prop} {x x' : V} {e : Option (Option R)} {pc : Nat} {s : St}
    (h : Cont A S c X.P X.G g x x' e pc s) (ρ : Bool) (y : V) : Stops A c pc s ρ y := by
  rcases h with ⟨pc', s', e', h1, h2, _⟩ | ⟨pc', s', h1, h2, _⟩
  · exact .go h1 (F.stops _ _ _ h2 _ _)
  · exact .go h1 (.done h2)

theorem Points.stops {X : ∀ c, Points A S c} (F : ∀ c, Free (X c)) {l : Loc C St W} {e : Option (Option R)}
    (h : (X l.call).pend l e) (ρ : Bool) (x : V) : A.code.Stops l ρ x := by
  obtain ⟨c, pc, hf, n, s⟩ := l
  obtain ⟨-, hP, hh⟩ := h
  simp only at hP
  cases hf with
  | none => exact (F c).stops _ _ _ hP ρ x n
  | some w =>
    obtain ⟨i, word, k, hi, hs⟩ := hh.resolve_left (by simp)
    simp only at hi hs
    obtain ⟨i', hi', hok⟩ := (X c).ok _ _ _ hP
    rw [hi] at hi'; cases hi'
    rw [hs] at hok
    refine .acc (a := .op (.load .relaxed)) (f := fun r => match r with
        | .val y => ⟨c, pc + 1, none, n + 1, if A.order c n then k (word y false) w else k w (word y true)⟩
        | _ => ⟨c, pc, some w, n, s⟩)
      (by show A.next _ = _; simp [Blocks.next, hi, hs, Loc.to_]; funext r; cases r <;> rfl) fun r hr _ => ?_
    obtain ⟨-, rfl⟩ := load_relaxed hr
    cases hord : A.order c n
    · exact Cont.stops (F c) (hok.2 w (word x true) x) ρ x (n + 1)
    · exact Cont.stops (F c) (hok.2 (word x false) w x) ρ x (n + 1)

/-- The certificate of lock-freedom. -/
def lfCert (X : ∀ c, Points A S c) (F : ∀ c, Free (X c)) (hl : A.code.Looks) :
    LfCert (A.code.sys K) (A.code.Spurious) fun _ => True where
  inv l := Way X l.2.1
  done l := Done A l.2.1
  start t op := by
    obtain ⟨pc, s, h1, h2⟩ := (X op.2).start
    exact .inl ⟨⟨op.2, pc, none, 0, s⟩, none, h1.adv none 0, rfl, h2, .inl rfl⟩
  step t l m l' m' _ hi hs := by
    refine ⟨trivial, ?_⟩
    rcases LlSc.Code.step_cases hs with ⟨l1, h, rfl, -⟩ | ⟨a, f, x, r, n, h, hx, -, rfl, -⟩ | ⟨f, h, rfl, -⟩ | ⟨v, f, h, rfl, -⟩ | ⟨v, f, h, rfl, -⟩
    · exact hi.tau h
    · obtain ⟨e, he⟩ := hi.at_ (by simp [h]) (by simp [h])
      exact Goes.way ((X l.2.1.call).local_.acc _ e a f _ x r he h hx)
    · obtain ⟨e, he⟩ := hi.at_ (by simp [h]) (by simp [h])
      exact Goes.way ((X l.2.1.call).local_.ll _ e f _ he h)
    · obtain ⟨e, he⟩ := hi.at_ (by simp [h]) (by simp [h])
      exact .inr (Points.atSc F he h)
    · obtain ⟨e, he⟩ := hi.at_ (by simp [h]) (by simp [h])
      exact Goes.way ((X l.2.1.call).local_.scFail _ e v f (m l.1).val he h)
  done_step t l m l' m' _ hi hd hs := by
    rcases LlSc.Code.step_cases hs with ⟨l1, h, rfl, hm⟩ | ⟨a, f, x, r, n, h, hx, -, rfl, -⟩ | ⟨f, h, rfl, -⟩ | ⟨v, f, h, rfl, -⟩ | ⟨v, f, h, rfl, -⟩
    · exact ⟨hd.tau h, hm⟩
    all_goals
      rcases hd.only with ⟨_, h'⟩ | ⟨_, h'⟩ <;> (rw [h] at h'; cases h')
  write t l m l' m' _ hi hs hn := by
    rcases LlSc.Code.step_cases hs with ⟨l1, h, rfl, hm⟩ | ⟨a, f, x, r, n, h, hx, hv, rfl, hm⟩ | ⟨f, h, rfl, hm⟩ | ⟨v, f, h, rfl, -⟩ | ⟨v, f, h, rfl, hm⟩
    · exact .inl hm
    · obtain ⟨e, he⟩ := hi.at_ (by simp [h]) (by simp [h])
      rcases Points.atAcc F he h hx with hr | hd
      · have hxe := hr.same hx
        subst hxe
        left
        by_cases hver : n = (m l.1).ver
        · subst hver; rw [hm, Function.update_eq_self]
        · exfalso
          refine hn (.inr ⟨a, f, r, h, rfl, ?_, .inr ⟨hr, ?_⟩⟩)
          · rw [hm, Function.update_self]; exact hx
          · rw [hm, Function.update_self]; exact hver
      · exact .inr hd
    · exact .inl hm
    · obtain ⟨e, he⟩ := hi.at_ (by simp [h]) (by simp [h])
      exact .inr (Points.atSc F he h)
    · exact .inl hm
  live t l m _ _ := LlSc.Code.goes_on hl t l m
  acc m l _ hi := by
    obtain ⟨k, l, ρ⟩ := l
    refine LlSc.Code.Stops.acc_ (b := decide (ρ = some (m k).ver)) (x := (m k).val) ?_ m k ρ rfl rfl
    rcases hi with ⟨l', e, h1, h2⟩ | ⟨l', r, h1, h2⟩
    · exact h1.stops (Points.stops F h2 _ _)
    · exact h1.stops (.ret h2)

theorem lockFree (X : ∀ c, Points A S c) (F : ∀ c, Free (X c)) (hl : A.code.Looks) :
    LockFree (A.code.sys K) A.code.Spurious := (lfCert X F hl).lockFree

/-- Blocks that look whether a weak compare-exchange has succeeded. -/
theorem looks_ (h : ∀ c i s cur new o g k, A.sem c i s = .acc (.casWeak cur new o g) k → k (.ok cur) ≠ k (.err cur)) :
    A.code.Looks := by
  intro l cur new o g f hn
  change A.next _ = _ at hn
  unfold Blocks.next at hn
  split at hn
  · cases hn
  · split at hn
    all_goals first | cases hn | skip
    · next hs =>
      intro e
      exact h _ _ _ _ _ _ _ _ hs (congrArg Loc.st e)
    · split at hn <;> cases hn

/-- Blocks that use no weak compare-exchange. -/
theorem looks (h : ∀ c i s cur new o g k, A.sem c i s ≠ .acc (.casWeak cur new o g) k) : A.code.Looks :=
  looks_ fun c i s cur new o g k e => absurd e (h c i s cur new o g k)

end
end Verif.Asm
