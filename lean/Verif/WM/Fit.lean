import Verif.Spec.WeakMemory
import Verif.Fallback.Code
/-!
# Native atomics keep to their types (proof internals)

When every call is well typed, every value ever stored in an object is of the object's type.
-/
set_option autoImplicit false
set_option linter.unusedSectionVars false
namespace Verif.WM.Native
variable {V X : Type} [DecidableEq V]

/-- Well-typed calls. -/
def EvFits (P : Obj → V → Prop) : Ev V X → Prop
  | .inv _ o op => op.Fits (P o)
  | _ => True

structure Fit (P : Obj → V → Prop) (a : State V X) : Prop where
  mo : ∀ o, ∀ m ∈ a.mo o, P o m.val
  pc : ∀ t o op b, a.pc t = .todo o op b → op.Fits (P o)

theorem access_fit {P : V → Prop} {ms ms' : List (Msg Loc V)} {v v' : TV Loc} {l : Loc} {op : Op V}
    {ord : MemOrd} {r : Res V} (h : Access ms v l op ord ms' v' r) (hf : op.Fits P)
    (hm : ∀ m ∈ ms, P m.val) : ∀ m ∈ ms', P m.val := by
  cases h with
  | load _ _ _ h => exact hm
  | casErr _ _ _ _ _ _ h => exact hm
  | store x o _ _ h => cases h; intro m h; rcases List.mem_cons.1 h with rfl | h; exacts [hf, hm m h]
  | swap x o _ _ _ h => cases h; intro m h; rcases List.mem_cons.1 h with rfl | h; exacts [hf, hm m h]
  | rmw g o _ _ _ h =>
    cases h with | mk m0 _ h0 =>
    intro m h; rcases List.mem_cons.1 h with rfl | h; exacts [hf _ (hm _ h0), hm m h]
  | casOk cur _ _ _ _ _ h =>
    generalize cur = x at h
    cases h
    intro m h; rcases List.mem_cons.1 h with rfl | h; exacts [hf, hm m h]

theorem Fit.goto {P : Obj → V → Prop} {a : State V X} (F : Fit P a) (t : Tid) (p : Pc V)
    (h : ∀ o op b, p = .todo o op b → op.Fits (P o)) : Fit P (a.goto t p) := by
  refine ⟨F.mo, fun u o op b hu => ?_⟩
  by_cases e : u = t
  · subst e; simp only [State.goto, Function.update_self] at hu; exact h _ _ _ hu
  · simp only [State.goto, Function.update_of_ne e] at hu; exact F.pc _ _ _ _ hu

theorem Fit.step {P : Obj → V → Prop} {a a' : State V X} {e : Option (Ev V X)} (F : Fit P a)
    (st : Step a e a') (he : ∀ x, e = some x → EvFits P x) : Fit P a' := by
  cases st with
  | inv t o op h =>
    refine F.goto t _ fun o' op' b h => ?_
    injection h with h1 h2 _; subst h1; subst h2; exact he _ rfl
  | panic t o op b h ho => exact F.goto t _ fun _ _ _ h => by cases h
  | pre t o op b h =>
    refine Fit.goto (a := a.scFence t) ⟨F.mo, F.pc⟩ t _ fun o' op' b h' => ?_
    injection h' with h1 h2 _; subst h1; subst h2; exact F.pc _ _ _ _ h
  | access t o op b ord ms v r h ho ha hs =>
    refine Fit.goto (a := { a with mo := Function.update a.mo o ms, tv := Function.update a.tv t v })
      ⟨fun o' => ?_, F.pc⟩ t _ fun _ _ _ h => by cases h
    by_cases e : o' = o
    · subst e; simp only [Function.update_self]
      exact access_fit ha (F.pc _ _ _ _ h) (F.mo _)
    · simp only [Function.update_of_ne e]; exact F.mo o'
  | post t r b h => exact Fit.goto (a := a.scFence t) ⟨F.mo, F.pc⟩ t _ fun _ _ _ h => by cases h
  | ret t r h => exact F.goto t _ fun _ _ _ h => by cases h
  | client => exact ⟨F.mo, F.pc⟩

theorem Fit.exec {P : Obj → V → Prop} {v0 : Obj → V} {x0 : Nat → X} (h0 : ∀ o, P o (v0 o))
    {h : List (Ev V X)} {a : State V X} (x : Exec Step (init v0 x0) h a)
    (hh : ∀ e ∈ h, EvFits P e) : Fit P a := by
  generalize hi : init v0 x0 = i at x
  induction x with
  | refl =>
    subst hi
    refine ⟨fun o m hm => ?_, fun t o op b h => by simp [init] at h⟩
    simp only [init, initMsgs, List.mem_singleton] at hm
    subst hm; exact h0 o
  | tau _ st ih => exact (ih hh).step st (by intro x hx; cases hx)
  | ev _ st ih =>
    refine (ih fun e he => hh e (by simp [he])).step st ?_
    intro x hx; obtain rfl := Option.some.inj hx; exact hh _ (by simp)

end Verif.WM.Native
