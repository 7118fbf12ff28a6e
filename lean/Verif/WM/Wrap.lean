import Verif.Spec.Derived
import Verif.Lf.Access
/-!
# Code over an atomic, in weak memory

`Lf/Access.lean` has code that makes accesses to an underlying atomic object, run on an interleaving
memory.  Here the same code runs over an atomic of which only the histories are known: `Wrap c hi ho`
says that threads running the code `c` produce the outer history `ho` (calls of the operations and
their returns) while making the calls in the inner history `hi` on the underlying atomics.  Whatever
provides the underlying atomics decides which inner histories are possible: native atomics in weak
memory (`Native.Behaviour`), or the lock-based ones (`Lock.Behaviour`).

A weak compare-exchange is a call of compare-exchange, or a call of load with the failure ordering
whose answer is taken as a failure (this is how C++ describes a spurious failure).
-/
set_option autoImplicit false
namespace Verif.WM.Derived
open Verif.Lf (Acc Next Code)

variable {V W O R L X : Type}

/-- The answer of a load, taken as a failed compare-exchange. -/
def spurious : Res V → Res V
  | .val x => .err x
  | r => r

/-- `Calls a f i g`: the access `a`, whose answer goes to `f`, is made by calling `i`, whose answer goes
to `g`. -/
inductive Calls : Acc V → (Res V → L) → Op V → (Res V → L) → Prop where
  | op (o : Op V) (f : Res V → L) : Calls (.op o) f o f
  | cas (c n : V) (s g : MemOrd) (f : Res V → L) : Calls (.casWeak c n s g) f (.cas c n s g) f
  | spur (c n : V) (s g : MemOrd) (f : Res V → L) : Calls (.casWeak c n s g) f (.load g) (fun r => f (spurious r))

/-- Where a thread is in the code. -/
inductive Th (V L : Type) where
  | idle
  | run (o : Obj) (l : L)
  | wait (o : Obj) (i : Op V) (f : Res V → L)

/-- Code running: inner history, outer history, the threads. -/
inductive Wrap (c : Code V O R L) : List (WM.Ev V X) → List (Ev O R X) → (Tid → Th V L) → Prop where
  | nil : Wrap c [] [] (fun _ => .idle)
  | call {hi ho w} (x : Wrap c hi ho w) (t o op) (h : w t = .idle) :
      Wrap c hi (ho ++ [.inv t o op]) (Function.update w t (.run o (c.start op)))
  | tau {hi ho w} (x : Wrap c hi ho w) (t o l k) (h : w t = .run o l) (hn : c.next l = .tau k) :
      Wrap c hi ho (Function.update w t (.run o k))
  /-- a read that may return anything -/
  | peek {hi ho w} (x : Wrap c hi ho w) (t o l f y) (h : w t = .run o l) (hn : c.next l = .acc .peek f) :
      Wrap c hi ho (Function.update w t (.run o (f (.val y))))
  | acc {hi ho w} (x : Wrap c hi ho w) (t o l a f i g) (h : w t = .run o l) (hn : c.next l = .acc a f)
      (hc : Calls a f i g) : Wrap c (hi ++ [.inv t o i]) ho (Function.update w t (.wait o i g))
  | res {hi ho w} (x : Wrap c hi ho w) (t o i g r) (h : w t = .wait o i g) :
      Wrap c (hi ++ [.ret t r]) ho (Function.update w t (.run o (g r)))
  | ret {hi ho w} (x : Wrap c hi ho w) (t o l r) (h : w t = .run o l) (hn : c.next l = .ret r) :
      Wrap c hi (ho ++ [.ret t r]) (Function.update w t .idle)
  | client {hi ho w} (x : Wrap c hi ho w) (t a r) (h : w t = .idle) :
      Wrap c (hi ++ [.client t a r]) (ho ++ [.client t a r]) w

/-- The histories of the code `c` over atomics with the histories `B`. -/
def Over (c : Code V O R L) (B : List (WM.Ev V X) → Prop) (ho : List (Ev O R X)) : Prop :=
  ∃ hi w, B hi ∧ Wrap c hi ho w

/-- Better atomics, fewer histories. -/
theorem Over.mono {c : Code V O R L} {B B' : List (WM.Ev V X) → Prop} (hb : ∀ h, B h → B' h)
    {ho : List (Ev O R X)} (h : Over c B ho) : Over c B' ho := by
  obtain ⟨hi, w, x, y⟩ := h
  exact ⟨hi, w, hb _ x, y⟩

variable [DecidableEq V]

/-- What a call of `i` may read, write (with which ordering) and answer. -/
inductive Out : Op V → Option V → Option V → MemOrd → Res V → Prop where
  | panic (i) (h : i.ordOk = false) : Out i none none .relaxed .panic
  | load (o x) (h : (Op.load o : Op V).ordOk = true) : Out (.load o) (some x) none o (.val x)
  | store (y o) (h : (Op.store y o).ordOk = true) : Out (.store y o) none (some y) o .unit
  | swap (y o x) : Out (.swap y o) (some x) (some y) o (.val x)
  | rmw (g o x) : Out (.rmw g o) (some x) (some (g x)) o (.val x)
  | casOk (c n s f) (h : (Op.cas c n s f).ordOk = true) : Out (.cas c n s f) (some c) (some n) s (.ok c)
  | casErr (c n s f y) (h : (Op.cas c n s f).ordOk = true) (hy : y ≠ c) : Out (.cas c n s f) (some y) none f (.err y)

/-- An access that reads `rd` and writes `wr` with ordering `ord` does what `op`, returning `r`, is to do. -/
def Fits (S : Spec W O R) (abs : V → W) (op : O) (rd wr : Option V) (ord : MemOrd) (r : R) : Prop :=
  match rd, wr with
  | none, none => S.kind op r = .nothing ∧ ∀ x, S.sem op x x r
  | some x, none => S.kind op r = .read ∧ S.sem op (abs x) (abs x) r ∧ ord.AtLeast (S.fail op)
  | some x, some y =>
    (S.kind op r = .write ∧ S.sem op (abs x) (abs y) r ∧ ord.AtLeast (S.succ op)) ∨
    (S.kind op r = .store ∧ (∀ z, S.sem op z (abs y) r) ∧ ord.AtLeast (S.succ op)) ∨
    (S.kind op r = .read ∧ abs y = abs x ∧ S.sem op (abs x) (abs x) r ∧ ord.AtLeast (S.fail op))
  | none, some y => S.kind op r = .store ∧ (∀ z, S.sem op z (abs y) r) ∧ ord.AtLeast (S.succ op)

/-- The access leaves the contents as they were. -/
def Skips (abs : V → W) (rd wr : Option V) : Prop :=
  wr = none ∨ ∃ x y, rd = some x ∧ wr = some y ∧ abs y = abs x

/-- What has to be shown of the code. `at_ l op`: at `l`, `op` is still to take effect; `dn l r`: it has,
and `r` will be returned. -/
structure WSim (c : Code V O R L) (S : Spec W O R) where
  abs : V → W
  inv : V → Prop
  at_ : L → O → Prop
  dn : L → R → Prop
  start : ∀ op, at_ (c.start op) op
  tau : ∀ l op k, at_ l op → c.next l = .tau k →
    at_ k op ∨ ∃ r, S.kind op r = .nothing ∧ (∀ x, S.sem op x x r) ∧ dn k r
  peek : ∀ l op f y, at_ l op → c.next l = .acc .peek f → at_ (f (.val y)) op
  acc : ∀ l op a f i g rd wr ord r, at_ l op → c.next l = .acc a f → Calls a f i g → Out i rd wr ord r →
    (∀ x, rd = some x → inv x) →
    (∀ y, wr = some y → inv y) ∧ ((Skips abs rd wr ∧ at_ (g r) op) ∨ ∃ r', Fits S abs op rd wr ord r' ∧ dn (g r) r')
  ret : ∀ l op r, at_ l op → c.next l ≠ .ret r
  tau_dn : ∀ l r k, dn l r → c.next l = .tau k → dn k r
  acc_dn : ∀ l r a f, dn l r → c.next l ≠ .acc a f
  ret_dn : ∀ l r r', dn l r → c.next l = .ret r' → r' = r

end Verif.WM.Derived
