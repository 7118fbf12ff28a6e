import Verif.Lf.Machine
/-!
# Specification: lock-freedom

Nothing in this file models the crate.  A system is *lock-free* if, however its threads are scheduled, it never
happens that threads go on taking steps forever and only finitely many calls return: in particular a thread that
is stopped (or killed) in the middle of a call does not keep the others from finishing.

Hardware that offers a weak compare-exchange or load-linked/store-conditional does not exclude that these fail for no
reason at all, and then nothing can be promised; such steps are called spurious and may happen only finitely often.
-/
set_option autoImplicit false
namespace Verif.Lf
open Verif.Object

variable {M L O R : Type}

/-- The step from `s` to `s'` is (or could be) a step of some thread that `spur` calls spurious. -/
def SpuriousStep (I : Sys M L O R) (spur : L → M → L → M → Prop) (s s' : State M L) : Prop :=
  ∃ t l l', s.th t = some l ∧ I.step t l s.mem l' s'.mem ∧ s'.th = Function.update s.th t (some l') ∧ spur l s.mem l' s'.mem

/-- In every state that can be reached from a memory `P`, every thread inside a call can return or make a step that is not spurious, whatever
the other threads are in the middle of. -/
def NeverStuck (I : Sys M L O R) (spur : L → M → L → M → Prop) (P : M → Prop) : Prop :=
  ∀ m h s, P m → Runs I m h s → ∀ t l, s.th t = some l →
    (∃ r, I.ret l = some r) ∨ ∃ l' m', I.step t l s.mem l' m' ∧ ¬ spur l s.mem l' m'

/-- In every infinite execution, from any memory `P`, of any finite number of threads, in which only finitely many steps
are spurious, infinitely many calls return. -/
def Progress (I : Sys M L O R) (spur : L → M → L → M → Prop) (P : M → Prop) : Prop :=
  ∀ (m : M) (N : Nat) (σ : Nat → State M L) (e : Nat → Option (Object.Ev O R)),
    P m → σ 0 = { mem := m, th := fun _ => none } → (∀ i, Step I (σ i) (e i) (σ (i + 1))) →
    (∀ i t, N ≤ t → (σ i).th t = none) →
    (∃ n, ∀ i, n ≤ i → ¬ SpuriousStep I spur (σ i) (σ (i + 1))) →
    ∀ n, ∃ i, n ≤ i ∧ ∃ t r, e i = some (.ret t r)

/-- Lock-free, from the memories `P`: no thread ever has to wait for another one, and as long as threads run calls
return. -/
def LockFreeFrom (I : Sys M L O R) (spur : L → M → L → M → Prop) (P : M → Prop) : Prop :=
  NeverStuck I spur P ∧ Progress I spur P

/-- Lock-free, whatever the memory holds. -/
def LockFree (I : Sys M L O R) (spur : L → M → L → M → Prop) : Prop := LockFreeFrom I spur fun _ => True

end Verif.Lf
