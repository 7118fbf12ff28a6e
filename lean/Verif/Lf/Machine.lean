import Verif.Spec.Object
/-!
# Running per-call code on shared memory

A `Sys` is the code of a set of operations: each call runs a small program (local states `L`) whose
steps read and write the shared memory `M`, one atomic access per step.  Threads interleave
arbitrarily.  `Sim.linearizable` is the general tool used for every lock-free operation of the
crate: it suffices to name, for each local state, whether the operation has taken effect yet.
-/
namespace Verif.Lf
open Verif.Object

/-- Code of the operations `O` with results `R`. -/
structure Sys (M L O R : Type) where
  /-- first local state of a call -/
  start : Tid → O → L
  /-- one atomic access (or one local step) of thread `t` -/
  step : Tid → L → M → L → M → Prop
  /-- the call has finished with this result -/
  ret : L → Option R

variable {M L O R C : Type}

structure State (M L : Type) where
  mem : M
  th : Tid → Option L

/-- Arbitrary interleaving of the threads' steps. -/
inductive Step (I : Sys M L O R) : State M L → Option (Object.Ev O R) → State M L → Prop where
  | inv (s : State M L) (t op) (h : s.th t = none) :
      Step I s (some (.inv t op)) { s with th := Function.update s.th t (some (I.start t op)) }
  | act (s : State M L) (t l l' m') (h : s.th t = some l) (hs : I.step t l s.mem l' m') :
      Step I s none { mem := m', th := Function.update s.th t (some l') }
  | ret (s : State M L) (t l r) (h : s.th t = some l) (hr : I.ret l = some r) :
      Step I s (some (.ret t r)) { s with th := Function.update s.th t none }

/-- `h` is a history of the code started in memory `m`, `m'` the memory afterwards. -/
def Runs (I : Sys M L O R) (m : M) (h : List (Object.Ev O R)) (s : State M L) : Prop :=
  Exec (Step I) { mem := m, th := fun _ => none } h s

/-- A simulation of the code by a sequential object. `at_ t m l st` says that thread `t` in local
state `l` (memory `m`) is, as the specification sees it, in status `st`. -/
structure Sim (I : Sys M L O R) (S : Spec C O R) where
  abs : M → C
  inv : M → Prop
  at_ : Tid → M → L → Status O R → Prop
  start : ∀ t m op, inv m → at_ t m (I.start t op) (.pending op)
  step : ∀ t m l l' m' st, inv m → at_ t m l st → I.step t l m l' m' →
    inv m' ∧ ((abs m' = abs m ∧ at_ t m' l' st) ∨
      ∃ op r, st = .pending op ∧ S.sem op (abs m) (abs m') r ∧ at_ t m' l' (.done r))
  stable : ∀ t m l l' m' st, inv m → at_ t m l st → I.step t l m l' m' →
    ∀ u k st', u ≠ t → at_ u m k st' → at_ u m' k st'
  ret : ∀ t m l st r, inv m → at_ t m l st → I.ret l = some r → st = .done r

namespace Sim
variable {I : Sys M L O R} {S : Spec C O R}

/-- Machine and specification states agree. -/
def Rel (X : Sim I S) (s : State M L) (a : Object.State C O R) : Prop :=
  X.inv s.mem ∧ a.obj = X.abs s.mem ∧
    ∀ t, (s.th t = none ∧ a.th t = .idle) ∨ ∃ l, s.th t = some l ∧ X.at_ t s.mem l (a.th t)

theorem exec (X : Sim I S) {m : M} (hm : X.inv m) {h s} (hx : Runs I m h s) :
    ∃ a, Exec (Object.Step S) { obj := X.abs m, th := fun _ => .idle } h a ∧ X.Rel s a := by
  generalize hi : ({ mem := m, th := fun _ => none } : State M L) = i at hx
  unfold Runs at hx
  rw [hi] at hx
  induction hx with
  | refl =>
    subst hi
    exact ⟨{ obj := X.abs m, th := fun _ => .idle }, .refl _, hm, rfl, fun t => Or.inl ⟨rfl, rfl⟩⟩
  | tau _ st ih =>
    obtain ⟨a, ha, h1, h2, h3⟩ := ih
    cases st with
    | act t l l' m' h hs =>
      rcases h3 t with h | ⟨k, hk, hat⟩
      · simp_all
      obtain rfl : k = l := by simp_all
      obtain ⟨hi', hd⟩ := X.step _ _ _ _ _ _ h1 hat hs
      rcases hd with ⟨e, hat'⟩ | ⟨op, r, e, hsem, hat'⟩
      · refine ⟨a, ha, hi', by rw [h2, ← e], fun u => ?_⟩
        by_cases hu : u = t
        · subst hu; exact Or.inr ⟨l', by simp, hat'⟩
        · simp only [Function.update_of_ne hu]
          rcases h3 u with h | ⟨k', hk', hat''⟩
          · exact Or.inl h
          · exact Or.inr ⟨k', hk', X.stable _ _ _ _ _ _ h1 hat hs _ _ _ hu hat''⟩
      · refine ⟨_, .tau ha (.commit a t op (X.abs m') r e (h2 ▸ hsem)), hi', rfl, fun u => ?_⟩
        by_cases hu : u = t
        · subst hu; exact Or.inr ⟨l', by simp, by simpa using hat'⟩
        · simp only [Function.update_of_ne hu]
          rcases h3 u with h | ⟨k', hk', hat''⟩
          · exact Or.inl h
          · exact Or.inr ⟨k', hk', X.stable _ _ _ _ _ _ h1 hat hs _ _ _ hu hat''⟩
  | ev _ st ih =>
    obtain ⟨a, ha, h1, h2, h3⟩ := ih
    cases st with
    | inv t op h =>
      rcases h3 t with ⟨_, hid⟩ | ⟨k, hk, _⟩
      · refine ⟨_, .ev ha (.inv a t op hid), h1, h2, fun u => ?_⟩
        by_cases hu : u = t
        · subst hu; exact Or.inr ⟨I.start u op, by simp, by simpa using X.start u _ op h1⟩
        · simp only [Function.update_of_ne hu]; exact h3 u
      · simp_all
    | ret t l r h hr =>
      rcases h3 t with h | ⟨k, hk, hat⟩
      · simp_all
      obtain rfl : k = l := by simp_all
      have e := X.ret _ _ _ _ _ h1 hat hr
      refine ⟨_, .ev ha (.ret a t r e), h1, h2, fun u => ?_⟩
      by_cases hu : u = t
      · subst hu; exact Or.inl (by simp)
      · simp only [Function.update_of_ne hu]; exact h3 u

/-- Every history of the code is linearizable, and the object state the linearization ends in is the
one in memory. -/
theorem linearizable (X : Sim I S) {m : M} (hm : X.inv m) {h s} (hx : Runs I m h s) :
    LinearizableTo S (X.abs m) h (X.abs s.mem) := by
  obtain ⟨a, ha, h1, h2, _⟩ := X.exec hm hx
  exact ⟨a, ha, h2⟩

theorem inv_mem (X : Sim I S) {m : M} (hm : X.inv m) {h s} (hx : Runs I m h s) : X.inv s.mem := by
  obtain ⟨a, _, h1, _⟩ := X.exec hm hx
  exact h1

end Sim
end Verif.Lf
