import Verif.Lf.Access
/-!
# Straight-line operations

Operations that are a few fences around one access to the object, or a panic.  `Stmt` is such a
program; `Stmt.code` runs it for any number of threads and objects; `Stmt.Events` lists what it does in
program order, for the theorems about orderings.
-/
set_option autoImplicit false
set_option linter.unusedSectionVars false
namespace Verif.Lf
open Verif.Object

variable {I F V O E K : Type} [DecidableEq V] [DecidableEq K]

/-- A program with accesses `I` and fences `F`. -/
inductive Stmt (I F V : Type) where
  | panic
  | ret (r : Res V)
  | fence (f : F) (k : Stmt I F V)
  | acc (i : I) (k : Res V → Stmt I F V)

/-- What it does next; `acc i` is the meaning of access `i`. -/
def Stmt.next (acc : I → Acc V) : Stmt I F V → Next V (Res V) (Stmt I F V)
  | .panic => .tau (.ret .panic)
  | .ret r => .ret r
  | .fence _ k => .tau k
  | .acc i k => .acc (acc i) k

/-- Programs of a set of operations. -/
def Stmt.code (acc : I → Acc V) (prog : O → Stmt I F V) : Code V O (Res V) (Stmt I F V) where
  start := prog
  next := Stmt.next acc

/-- A complete execution of a program, whatever other threads do: its events in program order and its
result. `evF f` are the events of a fence, `evI i r t` says that `t` may be those of an access that
returned `r`. -/
inductive Stmt.Events (acc : I → Acc V) (evF : F → List E) (evI : I → Res V → List E → Prop) :
    Stmt I F V → List E → Res V → Prop where
  | panic : Events acc evF evI .panic [] .panic
  | ret (r) : Events acc evF evI (.ret r) [] r
  | fence {f k t r} (h : Events acc evF evI k t r) : Events acc evF evI (.fence f k) (evF f ++ t) r
  | acc {i k x x' v e t r} (hs : (acc i).sem x x' v) (he : evI i v e) (h : Events acc evF evI (k v) t r) :
      Events acc evF evI (.acc i k) (e ++ t) r

/-- The effect has happened, the result is `r`: there is no further access. -/
def Stmt.Done (r : Res V) : Stmt I F V → Prop
  | .panic => False
  | .ret r' => r' = r
  | .fence _ k => k.Done r
  | .acc _ _ => False

/-- What is to happen is `S`. -/
def Stmt.Pending (acc : I → Acc V) (S : V → V → Res V → Prop) : Stmt I F V → Prop
  | .panic => ∀ x, S x x .panic
  | .ret _ => False
  | .fence _ k => k.Pending acc S
  | .acc i k => ∀ x x' v, (acc i).sem x x' v → ∃ r, S x x' r ∧ (k v).Done r

/-- Where a program is. -/
inductive Stmt.At (acc : I → Acc V) (S : Spec V O (Res V)) : Stmt I F V → Status O (Res V) → Prop where
  | pending {op} {p : Stmt I F V} (h : p.Pending acc (S.sem op)) : At acc S p (.pending op)
  | done {r} {p : Stmt I F V} (h : p.Done r) : At acc S p (.done r)

/-- If each program makes exactly one access, with the specified effect and result, or panics when
specified, the code simulates the object. -/
def Stmt.sim {acc : I → Acc V} {prog : O → Stmt I F V} {S : Spec V O (Res V)}
    (H : ∀ op, (prog op).Pending acc (S.sem op)) : CodeSim (Stmt.code acc prog) S where
  abs := id
  inv _ := True
  at_ := Stmt.At acc S
  start op := .pending (H op)
  tau := by
    intro l st k x hat hn _
    cases hat with
    | @pending op p h =>
      cases l with
      | panic =>
        simp only [Stmt.code, Stmt.next, Next.tau.injEq] at hn
        subst hn
        exact Or.inr ⟨_, .panic, rfl, h x, .done rfl⟩
      | ret r => exact absurd h id
      | fence f k' =>
        simp only [Stmt.code, Stmt.next, Next.tau.injEq] at hn
        subst hn
        exact Or.inl (.pending h)
      | acc i k' => simp [Stmt.code, Stmt.next] at hn
    | @done r p h =>
      cases l with
      | panic => exact absurd h id
      | ret r => simp [Stmt.code, Stmt.next] at hn
      | fence f k' =>
        simp only [Stmt.code, Stmt.next, Next.tau.injEq] at hn
        subst hn
        exact Or.inl (.done h)
      | acc i k' => exact absurd h id
  step := by
    intro l st a f x x' r hat hn _ hs
    refine ⟨trivial, ?_⟩
    cases hat with
    | @pending op p h =>
      cases l with
      | acc i k' =>
        simp only [Stmt.code, Stmt.next, Next.acc.injEq] at hn
        obtain ⟨rfl, rfl⟩ := hn
        obtain ⟨r', h1, h2⟩ := h x x' r hs
        exact Or.inr ⟨_, r', rfl, h1, .done h2⟩
      | _ => simp [Stmt.code, Stmt.next] at hn
    | @done r p h =>
      cases l with
      | acc i k' => exact absurd h id
      | _ => simp [Stmt.code, Stmt.next] at hn
  ret := by
    intro l st r hat hn
    cases l with
    | ret r' =>
      simp only [Stmt.code, Stmt.next, Next.ret.injEq] at hn
      subst hn
      cases hat with
      | pending h => exact absurd h id
      | done h => rw [show r' = _ from h]
    | _ => simp [Stmt.code, Stmt.next] at hn

/-- Every history of such code is linearizable. -/
theorem Stmt.linearizable {acc : I → Acc V} {prog : O → Stmt I F V} {S : Spec V O (Res V)}
    (H : ∀ op, (prog op).Pending acc (S.sem op)) {m : K → V} {h s}
    (hx : Runs ((Stmt.code acc prog).sys K) m h s) : LinearizableTo (S.many (K := K)) m h s.mem :=
  (Stmt.sim H).linearizable (m := m) (fun _ => trivial) hx

end Verif.Lf
