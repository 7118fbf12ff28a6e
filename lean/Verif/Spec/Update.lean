import Verif.Spec.Object
/-!
# Specification: `fetch_update` with arbitrary closures

Nothing in this file models the crate.  The closure given to `fetch_update` is the user's code: it may answer what it likes, differently
each time, it may panic, and it may itself use atomics, the same one included, and call `fetch_update` again.  So a thread has a stack of
calls, and the closure's being called and its answers are visible events.

What a user expects: the closure is shown values the atomic really holds; a call that returns `Ok(v)` has changed the atomic once, in one
indivisible step, from `v`, the last value its closure was shown, to what the closure answered to `v`; a call that returns `Err(v)` or
panics has changed nothing.
-/
set_option autoImplicit false
namespace Verif.Update
open Verif.Object

/-- How `fetch_update` ends. -/
inductive Out (V : Type) where
  | ok (v : V)
  | err (v : V)
  | panic

/-- Visible events. `inv`, `ret`: any other operation `i` and its result. -/
inductive Ev (K V I P : Type) where
  | inv (t : Tid) (i : I)
  | ret (t : Tid) (p : P)
  /-- `fetch_update` is called on object `k` -/
  | update (t : Tid) (k : K) (set fetch : MemOrd)
  /-- the closure of the thread's innermost `fetch_update` is called -/
  | ask (t : Tid) (v : V)
  /-- it returns -/
  | reply (t : Tid) (w : Option V)
  /-- it panics -/
  | panic (t : Tid)
  /-- the thread's innermost `fetch_update` ends -/
  | finish (t : Tid) (r : Out V)

/-- How far a call of `fetch_update` is. -/
inductive Stage (V : Type) where
  | reading
  /-- the atomic held `v` a moment ago -/
  | seen (v : V)
  /-- the closure is running -/
  | asked (v : V)
  /-- it wants `v` replaced by `w` -/
  | replied (v w : V)
  | over (r : Out V)

inductive Frame (K V I P : Type) where
  | pending (i : I)
  | done (p : P)
  | upd (k : K) (set fetch : MemOrd) (s : Stage V)

structure State (K V I P : Type) where
  cells : K → V
  th : Tid → List (Frame K V I P)

/-- A thread can make a call when it is in none, or inside a closure. -/
def MayCall {K V I P : Type} : List (Frame K V I P) → Prop
  | [] => True
  | .upd _ _ _ (.asked _) :: _ => True
  | _ => False

variable {K V I P : Type} [DecidableEq K]

/-- Steps. `T` says what the other operations do. -/
inductive Step (T : Spec (K → V) I P) : State K V I P → Option (Ev K V I P) → State K V I P → Prop where
  | inv (s : State K V I P) (t : Tid) (i : I) (h : MayCall (s.th t)) :
      Step T s (some (.inv t i)) ⟨s.cells, Function.update s.th t (.pending i :: s.th t)⟩
  | commit (s : State K V I P) (t : Tid) (i : I) (c' : K → V) (p : P) (st : List (Frame K V I P)) (h : s.th t = .pending i :: st)
      (hs : T.sem i s.cells c' p) : Step T s none ⟨c', Function.update s.th t (.done p :: st)⟩
  | ret (s : State K V I P) (t : Tid) (p : P) (st : List (Frame K V I P)) (h : s.th t = .done p :: st) :
      Step T s (some (.ret t p)) ⟨s.cells, Function.update s.th t st⟩
  | update (s : State K V I P) (t : Tid) (k : K) (set fetch : MemOrd) (h : MayCall (s.th t)) :
      Step T s (some (.update t k set fetch)) ⟨s.cells, Function.update s.th t (.upd k set fetch .reading :: s.th t)⟩
  /-- an ordering a load cannot have -/
  | reject (s : State K V I P) (t : Tid) (k : K) (set fetch : MemOrd) (st : List (Frame K V I P))
      (h : s.th t = .upd k set fetch .reading :: st) (hf : fetch = .release ∨ fetch = .acqRel) :
      Step T s none ⟨s.cells, Function.update s.th t (.upd k set fetch (.over .panic) :: st)⟩
  | look (s : State K V I P) (t : Tid) (k : K) (set fetch : MemOrd) (st : List (Frame K V I P))
      (h : s.th t = .upd k set fetch .reading :: st) (hf : fetch ≠ .release ∧ fetch ≠ .acqRel) :
      Step T s none ⟨s.cells, Function.update s.th t (.upd k set fetch (.seen (s.cells k)) :: st)⟩
  | ask (s : State K V I P) (t : Tid) (k : K) (set fetch : MemOrd) (v : V) (st : List (Frame K V I P))
      (h : s.th t = .upd k set fetch (.seen v) :: st) :
      Step T s (some (.ask t v)) ⟨s.cells, Function.update s.th t (.upd k set fetch (.asked v) :: st)⟩
  | yes (s : State K V I P) (t : Tid) (k : K) (set fetch : MemOrd) (v w : V) (st : List (Frame K V I P))
      (h : s.th t = .upd k set fetch (.asked v) :: st) :
      Step T s (some (.reply t (some w))) ⟨s.cells, Function.update s.th t (.upd k set fetch (.replied v w) :: st)⟩
  | no (s : State K V I P) (t : Tid) (k : K) (set fetch : MemOrd) (v : V) (st : List (Frame K V I P))
      (h : s.th t = .upd k set fetch (.asked v) :: st) :
      Step T s (some (.reply t none)) ⟨s.cells, Function.update s.th t (.upd k set fetch (.over (.err v)) :: st)⟩
  | panic (s : State K V I P) (t : Tid) (k : K) (set fetch : MemOrd) (v : V) (st : List (Frame K V I P))
      (h : s.th t = .upd k set fetch (.asked v) :: st) :
      Step T s (some (.panic t)) ⟨s.cells, Function.update s.th t (.upd k set fetch (.over .panic) :: st)⟩
  /-- the one step in which `fetch_update` changes something -/
  | replace (s : State K V I P) (t : Tid) (k : K) (set fetch : MemOrd) (v w : V) (st : List (Frame K V I P))
      (h : s.th t = .upd k set fetch (.replied v w) :: st) (hv : s.cells k = v) :
      Step T s none ⟨Function.update s.cells k w, Function.update s.th t (.upd k set fetch (.over (.ok v)) :: st)⟩
  | again (s : State K V I P) (t : Tid) (k : K) (set fetch : MemOrd) (v w : V) (st : List (Frame K V I P))
      (h : s.th t = .upd k set fetch (.replied v w) :: st) :
      Step T s none ⟨s.cells, Function.update s.th t (.upd k set fetch (.seen (s.cells k)) :: st)⟩
  | finish (s : State K V I P) (t : Tid) (k : K) (set fetch : MemOrd) (r : Out V) (st : List (Frame K V I P))
      (h : s.th t = .upd k set fetch (.over r) :: st) :
      Step T s (some (.finish t r)) ⟨s.cells, Function.update s.th t st⟩

/-- The history can be explained so, from contents `c` to contents `c'`. -/
def ExplainedTo (T : Spec (K → V) I P) (c : K → V) (h : List (Ev K V I P)) (c' : K → V) : Prop :=
  ∃ s, Exec (Step T) ⟨c, fun _ => []⟩ h s ∧ s.cells = c'

end Verif.Update
