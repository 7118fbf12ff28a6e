import Verif.Lf.Prog
import Verif.Lf.Run
/-!
# Progress and write behaviour of the code shapes
-/
set_option linter.unusedSectionVars false
namespace Verif.Lf

variable {V O R K : Type} [DecidableEq V] [DecidableEq K]

/-- Run any code alone for `n` steps without spurious failures: local state and cell. -/
def Code.alone {L : Type} (c : Code V O R L) : Nat → L → V → L × V
  | 0, l, x => (l, x)
  | n + 1, l, x =>
    match c.next l with
    | .ret _ => (l, x)
    | .tau l' => Code.alone c n l' x
    | .acc a k => Code.alone c n (k (a.exec false x).2) (a.exec false x).1

/-- Run the code alone for `n` steps without spurious failures: local state and cell. -/
def Prog.alone : Nat → Prog.Pc V R → V → Prog.Pc V R × V
  | 0, l, x => (l, x)
  | n + 1, l, x =>
    match Prog.next l with
    | .ret _ => (l, x)
    | .tau l' => Prog.alone n l' x
    | .acc a k => Prog.alone n (k (a.exec false x).2) (a.exec false x).1

/-- From the loop head, with any (also stale or torn) `prev`: at most two attempts. -/
theorem Prog.alone_loop (f : V → V) (o : MemOrd) (dec : V → R) (prev x : V) :
    Prog.alone 2 (.loop f o dec prev) x = (.fin (dec x), f x) := by
  by_cases h : x = prev
  · subst h
    simp [Prog.alone, Prog.next, Acc.exec, Op.onCell, Op.ordOk, Prog.afterCas]
  · simp [Prog.alone, Prog.next, Acc.exec, Op.onCell, Op.ordOk, Prog.afterCas, h]

/-- With an up-to-date `prev`: the first attempt. -/
theorem Prog.alone_loop_fresh (f : V → V) (o : MemOrd) (dec : V → R) (x : V) :
    Prog.alone 1 (.loop f o dec x) x = (.fin (dec x), f x) := by
  simp [Prog.alone, Prog.next, Acc.exec, Op.onCell, Op.ordOk, Prog.afterCas]

/-- A compare-exchange attempt that fails without a spurious failure found another value than the
one it was computed from. -/
theorem Prog.fail_means_changed (prev nx : V) (o g : MemOrd) (x y : V)
    (h : ((Acc.casWeak prev nx o g).exec false x).2 = .err y) : x ≠ prev := by
  intro e
  subst e
  simp only [Acc.exec, Bool.false_and, Bool.false_eq_true, if_false, Op.onCell] at h
  split at h <;> simp at h

/-- What one step of a thread inside a loop or `fetch_update` does to memory: nothing, or it
replaces exactly the value it computed from by the computed one and is finished. -/
theorem Prog.step_writes_once {l : Prog.Pc V R} {a : Acc V} {k : Res V → Prog.Pc V R}
    (hl : (∃ f o dec prev, l = .loop f o dec prev) ∨
      (∃ s g f dec hist prev, g ≠ .release ∧ g ≠ .acqRel ∧ l = .update s g f dec hist prev))
    (hn : Prog.next l = .acc a k) {x x' : V} {r : Res V} (hs : a.sem x x' r) :
    (x' = x ∧ ∃ y, r = .err y ∧ y = x) ∨
      ((∃ f o dec, l = .loop f o dec x ∧ x' = f x ∧ k r = .fin (dec x)) ∨
       (∃ s g f dec hist, l = .update s g f dec hist x ∧ f hist x = some x' ∧
          k r = .fin (dec (.ok x)))) := by
  rcases hl with ⟨f, o, dec, prev, rfl⟩ | ⟨s, g, f, dec, hist, prev, h1, h2, rfl⟩
  · simp only [Prog.next, Next.acc.injEq] at hn
    obtain ⟨rfl, rfl⟩ := hn
    rcases casWeak_cases (by simp) (by simp) hs with ⟨rfl, rfl, rfl⟩ | ⟨rfl, rfl⟩
    · exact Or.inr (Or.inl ⟨f, o, dec, rfl, rfl, rfl⟩)
    · exact Or.inl ⟨rfl, _, rfl, rfl⟩
  · cases hf : f hist prev with
    | none => simp [Prog.next, hf] at hn
    | some w =>
      simp only [Prog.next, hf, Next.acc.injEq] at hn
      obtain ⟨rfl, rfl⟩ := hn
      rcases casWeak_cases h1 h2 hs with ⟨rfl, rfl, rfl⟩ | ⟨rfl, rfl⟩
      · exact Or.inr (Or.inr ⟨s, g, f, dec, hist, rfl, hf, rfl⟩)
      · exact Or.inl ⟨rfl, _, rfl, rfl⟩

end Verif.Lf
