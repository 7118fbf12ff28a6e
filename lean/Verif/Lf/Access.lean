import Verif.Lf.Machine
/-!
# Code made of whole-cell atomic accesses

Many operations of the crate are small programs over another atomic of the same object (a byte, a
`usize`, a float's bits, a 128-bit word): one access, or a load followed by a compare-exchange loop.
`Code` is such a program, `Code.sys` runs it for any number of objects and threads.

Trusted meaning of an access: the underlying integer operation is one indivisible step on the cell
(`Op.onCell`; that is hardware, `core::sync::atomic`, or the lock-based fallback, for which C01 is
the theorem), and a *weak* compare-exchange may in addition fail without a reason.
-/
set_option linter.unusedSectionVars false
namespace Verif.Lf
open Verif.Object

/-- One access to the underlying atomic. -/
inductive Acc (V : Type) where
  | op (o : Op V)
  | casWeak (cur new : V) (succ fail : MemOrd)
  /-- a read that may return anything: used for first reads of loops that the code allows to be
  stale or torn -/
  | peek

variable {V W O R L K : Type} [DecidableEq V] [DecidableEq K]

/-- What an access may do to the cell and what it may return. -/
def Acc.sem (a : Acc V) (x x' : V) (r : Res V) : Prop :=
  match a with
  | .op o => (x', r) = o.onCell x
  | .casWeak cur new s f =>
    (x', r) = (Op.cas cur new s f).onCell x ∨
      ((Op.cas cur new s f).ordOk = true ∧ x' = x ∧ r = .err x)
  | .peek => x' = x ∧ ∃ v, r = .val v

/-- The ordering an access uses when it takes effect as a write (or is a plain load). -/
def Acc.succ : Acc V → MemOrd
  | .op (.load o) | .op (.store _ o) | .op (.swap _ o) | .op (.rmw _ o) => o
  | .op (.cas _ _ s _) | .casWeak _ _ s _ => s
  | .peek => .relaxed

/-- The ordering an access uses when it does not write. -/
def Acc.fail : Acc V → MemOrd
  | .op (.load o) | .op (.store _ o) | .op (.swap _ o) | .op (.rmw _ o) => o
  | .op (.cas _ _ _ f) | .casWeak _ _ _ f => f
  | .peek => .relaxed

/-- What the program does next. -/
inductive Next (V R L : Type) where
  | ret (r : R)
  | tau (l : L)
  | acc (a : Acc V) (k : Res V → L)

/-- A family of programs, one per operation. -/
structure Code (V O R L : Type) where
  start : O → L
  next : L → Next V R L

/-- The programs running on many objects (named by `K`). -/
def Code.sys (K : Type) [DecidableEq K] (c : Code V O R L) : Sys (K → V) (K × L) (K × O) R where
  start _ op := (op.1, c.start op.2)
  step _ l m l' m' :=
    (∃ k, c.next l.2 = .tau k ∧ l' = (l.1, k) ∧ m' = m) ∨
    (∃ a f x r, c.next l.2 = .acc a f ∧ a.sem (m l.1) x r ∧
      l' = (l.1, f r) ∧ m' = Function.update m l.1 x)
  ret l := match c.next l.2 with
    | .ret r => some r
    | _ => none

/-- Simulation obligations for the programs on a single cell. -/
structure CodeSim (c : Code V O R L) (S : Spec W O R) where
  abs : V → W
  inv : V → Prop
  at_ : L → Status O R → Prop
  start : ∀ op, at_ (c.start op) (.pending op)
  tau : ∀ l st k x, at_ l st → c.next l = .tau k → inv x →
    at_ k st ∨ ∃ op r', st = .pending op ∧ S.sem op (abs x) (abs x) r' ∧ at_ k (.done r')
  step : ∀ l st a f x x' r, at_ l st → c.next l = .acc a f → inv x → a.sem x x' r →
    inv x' ∧ ((abs x' = abs x ∧ at_ (f r) st) ∨
      ∃ op r', st = .pending op ∧ S.sem op (abs x) (abs x') r' ∧ at_ (f r) (.done r'))
  ret : ∀ l st r, at_ l st → c.next l = .ret r → st = .done r

/-- Status of a call on a named object. -/
def liftStatus (k : K) : Status O R → Status (K × O) R
  | .idle => .idle
  | .pending op => .pending (k, op)
  | .done r => .done r

def CodeSim.toSim {c : Code V O R L} {S : Spec W O R} (X : CodeSim c S) :
    Sim (c.sys K) (S.many (K := K)) where
  abs m := fun k => X.abs (m k)
  inv m := ∀ k, X.inv (m k)
  at_ _ _ l st := ∃ st0, X.at_ l.2 st0 ∧ st = liftStatus l.1 st0
  start t m op _ := ⟨_, X.start _, rfl⟩
  step := by
    rintro t m ⟨k, l⟩ l' m' st hm ⟨st0, hat, rfl⟩ (⟨j, hn, rfl, rfl⟩ | ⟨a, f, x, r, hn, hs, rfl, rfl⟩)
    · refine ⟨hm, ?_⟩
      rcases X.tau _ _ _ _ hat hn (hm k) with hat' | ⟨op, r', rfl, hsem, hat'⟩
      · exact Or.inl ⟨rfl, st0, hat', rfl⟩
      · refine Or.inr ⟨(k, op), r', rfl, ⟨X.abs (m' k), hsem, funext fun j => ?_⟩, .done r', hat', rfl⟩
        by_cases hj : j = k
        · subst hj; simp
        · simp [Function.update_of_ne hj]
    obtain ⟨hi, hd⟩ := X.step _ _ _ _ _ _ _ hat hn (hm k) hs
    refine ⟨fun j => ?_, ?_⟩
    · by_cases hj : j = k
      · subst hj; simpa using hi
      · simpa [Function.update_of_ne hj] using hm j
    · rcases hd with ⟨e, hat'⟩ | ⟨op, r', rfl, hsem, hat'⟩
      · refine Or.inl ⟨funext fun j => ?_, st0, hat', rfl⟩
        by_cases hj : j = k
        · subst hj; simpa using e
        · simp [Function.update_of_ne hj]
      · refine Or.inr ⟨(k, op), r', rfl, ⟨X.abs x, hsem, funext fun j => ?_⟩, .done r', hat', rfl⟩
        by_cases hj : j = k
        · subst hj; simp
        · simp [Function.update_of_ne hj]
  stable t m l l' m' st _ _ _ u k st' _ h := h
  ret := by
    rintro t m ⟨k, l⟩ st r hm ⟨st0, hat, rfl⟩ hr
    cases hn : c.next l with
    | acc a f => simp [Code.sys, hn] at hr
    | tau l' => simp [Code.sys, hn] at hr
    | ret r' =>
      simp [Code.sys, hn] at hr
      subst hr
      rw [X.ret _ _ _ hat hn]; rfl

/-- Histories of the programs are linearizable; the final memory is the linearization's. -/
theorem CodeSim.linearizable {c : Code V O R L} {S : Spec W O R} (X : CodeSim c S) {m : K → V}
    (hm : ∀ k, X.inv (m k)) {h s} (hx : Runs (c.sys K) m h s) :
    LinearizableTo (S.many (K := K)) (fun k => X.abs (m k)) h (fun k => X.abs (s.mem k)) :=
  X.toSim.linearizable (m := m) hm hx

theorem CodeSim.inv_mem {c : Code V O R L} {S : Spec W O R} (X : CodeSim c S) {m : K → V}
    (hm : ∀ k, X.inv (m k)) {h s} (hx : Runs (c.sys K) m h s) : ∀ k, X.inv (s.mem k) :=
  X.toSim.inv_mem (m := m) hm hx

end Verif.Lf
