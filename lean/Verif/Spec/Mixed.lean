import Verif.Spec.HerlihyWing
/-!
# Specification: objects of different kinds used by one program

`K` names the kinds (or the objects themselves); an object of kind `k` has states `C k`, operations `O k`, results `R k`.
-/
set_option autoImplicit false
namespace Verif.Object

variable {K : Type} [DecidableEq K] {C O R : K → Type}

/-- All objects together: an operation acts on one of them and leaves the others alone. -/
def Spec.mix (S : ∀ k, Spec (C k) (O k) (R k)) : Spec (∀ k, C k) (Σ k, O k) (Σ k, R k) where
  sem op c c' r := ∃ x y, (S op.1).sem op.2 (c op.1) x y ∧ c' = Function.update c op.1 x ∧ r = ⟨op.1, y⟩

/-- An event of object `k` as an event of the whole. -/
def Ev.tag (k : K) : Ev (O k) (R k) → Ev (Σ k, O k) (Σ k, R k)
  | .inv t op => .inv t ⟨k, op⟩
  | .ret t r => .ret t ⟨k, r⟩

/-- The event, if it is one of object `k`. -/
def Ev.at (k : K) : Ev (Σ k, O k) (Σ k, R k) → Option (Ev (O k) (R k))
  | .inv t op => if h : op.1 = k then some (.inv t (h ▸ op.2)) else none
  | .ret t r => if h : r.1 = k then some (.ret t (h ▸ r.2)) else none

/-- The events of object `k`: `H | k`. -/
def part (k : K) (h : List (Ev (Σ k, O k) (Σ k, R k))) : List (Ev (O k) (R k)) := h.filterMap (Ev.at k)

/-- Several systems side by side: each step is a step of one of them. -/
inductive MixStep {T : K → Type} (step : ∀ k, T k → Option (Ev (O k) (R k)) → T k → Prop) :
    (∀ k, T k) → Option (Ev (Σ k, O k) (Σ k, R k)) → (∀ k, T k) → Prop
  | of (s : ∀ k, T k) (k : K) (e : Option (Ev (O k) (R k))) (s' : T k) : step k (s k) e s' →
      MixStep step s (e.map (Ev.tag k)) (Function.update s k s')

end Verif.Object
