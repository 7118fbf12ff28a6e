import Verif.Stmt.Machine
import Verif.Ordering
import Verif.Spec.ArmOrder
/-!
# Narrow atomics and `fence` on Arm Linux before v6: `src/imp/arm_linux.rs`

`load`, `store`, `compare_exchange(_weak)` of integers and pointers up to 32 bits (L58-L170), and `fence` (L41-L56).
The operations this module does not define (`swap`, `fetch_*`: `src/imp/core_atomic.rs`) are passed on with
the ordering as it is.

`inner` operations are those of `core::sync::atomic`. What they do there is trusted: their values are
right (one indivisible step each), a relaxed load or store is one plain access, and the others are the
compiler runtime's loop (compiler-builtins `src/arm_linux.rs`, referred to in L14): load the word; if the value is not the
expected one return it; otherwise call the kernel's `__kuser_cmpxchg`, which has full barriers before and after its
accesses, and start again if that failed. So a failing compare-exchange ends with a plain load and no
barrier behind it: the bug L6-L7 is about.
-/
set_option autoImplicit false
namespace Verif.ArmLinux
open Verif.Lf
open Verif.MemOrd (Check)

variable {V : Type} [DecidableEq V]

/-- Calls of a narrow atomic. -/
inductive Call (V : Type) where
  | load (o : MemOrd)
  | store (v : V) (o : MemOrd)
  | cas (weak : Bool) (old new : V) (s f : MemOrd)
  | swap (v : V) (o : MemOrd)
  | rmw (f : V → V) (o : MemOrd)

/-- `__kuser_memory_barrier()`, L30-L39. -/
inductive Barrier where
  | barrier

abbrev Prog (V : Type) := Stmt (Acc V) Barrier V

/-- `load`, L70-L84. -/
def load (o : MemOrd) : Prog V :=
  match o.assertLoad with
  | .panic => .panic
  | .ok => match o with
    | .relaxed => .acc (.op (.load .relaxed)) .ret
    | .acquire | .seqCst => .acc (.op (.load .relaxed)) fun out => .fence .barrier (.ret out)
    | _ => .panic

/-- `store`, L90-L105. -/
def store (v : V) (o : MemOrd) : Prog V :=
  match o.assertStore with
  | .panic => .panic
  | .ok => match o with
    | .relaxed => .acc (.op (.store v .relaxed)) .ret
    | .release => .fence .barrier (.acc (.op (.store v .relaxed)) .ret)
    | .seqCst => .fence .barrier (.acc (.op (.store v .relaxed)) fun r => .fence .barrier (.ret r))
    | _ => .panic

/-- `Result::is_err`. -/
def isErr : Res V → Bool
  | .err _ => true
  | _ => false

/-- `compare_exchange` and `compare_exchange_weak`, L121-L160. `up`: `portable_atomic_no_stronger_failure_ordering`. -/
def cas (up weak : Bool) (old new : V) (s f : MemOrd) : Prog V :=
  match MemOrd.assertCas s f with
  | .panic => .panic
  | .ok =>
    let s' := if up then s.upgradeSuccess f else s
    .acc (if weak then .casWeak old new s' f else .op (.cas old new s' f)) fun res =>
      if f ≠ .relaxed ∧ isErr res = true then .fence .barrier (.ret res) else .ret res

/-- The program of a call. -/
def prog (up : Bool) : Call V → Prog V
  | .load o => load o
  | .store v o => store v o
  | .cas weak old new s f => cas up weak old new s f
  -- `src/imp/core_atomic.rs`: `self.inner.swap(val, order)`, `self.inner.fetch_*(val, order)`
  | .swap v o => .acc (.op (.swap v o)) .ret
  | .rmw f o => .acc (.op (.rmw f o)) .ret

/-- The module. -/
def code (up : Bool) : Code V (Call V) (Res V) (Prog V) := Stmt.code id (prog up)

export Verif.Arm (Ev)

/-- Events of a barrier. -/
def barrierEvents : Barrier → List Ev
  | .barrier => [.full]

/-- Rounds of the runtime's loop that did not end it: reads and barriers. -/
def NoWrite (t : List Ev) : Prop := ∀ e ∈ t, e = .full ∨ e = .rd .plain false

/-- A successful `__kuser_cmpxchg`. -/
def changed : List Ev := [.full, .rd .plain false, .wr false false, .full]

/-- Events of an inner operation that returned `r` (trusted, see above). -/
def InnerEvents (a : Acc V) (r : Res V) (t : List Ev) : Prop :=
  match a, r with
  | .op (.load .relaxed), _ => t = [.rd .plain false]
  | .op (.store _ .relaxed), _ => t = [.wr false false]
  | .op (.cas _ _ _ _), .err _ | .casWeak _ _ _ _, .err _ => ∃ u, NoWrite u ∧ t = u ++ [.rd .plain false]
  | .op (.cas _ _ _ _), .ok _ | .casWeak _ _ _ _, .ok _ | .op (.swap _ _), _ | .op (.rmw _ _), _ =>
    ∃ u, NoWrite u ∧ t = u ++ changed
  -- this module performs no other inner operations
  | _, _ => False

/-- `t` are the events of a complete execution of `c` with result `r`. -/
def Call.Events (up : Bool) (c : Call V) (t : List Ev) (r : Res V) : Prop :=
  Stmt.Events id barrierEvents InnerEvents (prog up c) t r

/-- `fence`, L49-L56: the events, or a panic. -/
def fence (o : MemOrd) : Option (List Ev) :=
  match o with
  | .relaxed => none
  | _ => some [.full]

end Verif.ArmLinux
