import Verif.Spec.Update
/-!
# `fetch_update` as the program around the user's closure

`src/lib.rs` L1594-1611 (`AtomicBool`), L2222-2239 (`AtomicPtr`), L3659-3676 (integers), L4584-4601 (floats), the same text four times:
```
let mut prev = self.load(fetch_order);
while let Some(next) = f(prev) {
    match self.compare_exchange_weak(prev, next, set_order, fetch_order) {
        x @ Ok(_) => return x,
        Err(next_prev) => prev = next_prev,
    }
}
Err(prev)
```
`f` is not part of the program: whatever it does is up to the environment (`Update.Run`).
-/
set_option autoImplicit false
namespace Verif.Update
open Verif.Object

/-- The operations of the atomic that `fetch_update` calls, with their answers. (A relation, as a call may come with state of the
environment: the depth of critical sections, the status register.) -/
structure Methods (K V I P : Type) where
  load : K → MemOrd → I → Prop
  compareExchangeWeak : K → V → V → MemOrd → MemOrd → I → Prop
  ans : P → Res V

/-- What is known about them: `load` is a load, `compare_exchange_weak` is a compare-exchange that may fail for no reason. -/
structure Methods.Ok {K V I P : Type} [DecidableEq K] (M : Methods K V I P) (T : Spec (K → V) I P) : Prop where
  load_ok : ∀ k o i m m' p, M.load k o i → T.sem i m m' p → o ≠ .release ∧ o ≠ .acqRel → m' = m ∧ M.ans p = .val (m k)
  load_bad : ∀ k o i m m' p, M.load k o i → T.sem i m m' p → o = .release ∨ o = .acqRel → m' = m ∧ M.ans p = .panic
  weak : ∀ k v w s f i m m' p, M.compareExchangeWeak k v w s f i → T.sem i m m' p → f ≠ .release ∧ f ≠ .acqRel →
    (m k = v ∧ m' = Function.update m k w ∧ M.ans p = .ok v) ∨ (m' = m ∧ M.ans p = .err (m k))

/-- Where a call of `fetch_update` is (lines of the integer version, `src/lib.rs`). -/
inductive Pc (V : Type) where
  /-- L3668, about to call `load` -/
  | load
  | waitLoad
  /-- L3669, `prev = v`, about to call `f` -/
  | head (v : V)
  /-- L3669, in `f` -/
  | body (v : V)
  /-- L3670, `next = w`, about to call `compare_exchange_weak` -/
  | cas (v w : V)
  | waitCas (v w : V)
  /-- L3671, L3675, or unwinding: about to return -/
  | ret (r : Out V)

variable {V : Type}

/-- L3668: with what `load` returns. (It returns a value or panics.) -/
def afterLoad : Res V → Pc V
  | .val v => .head v
  | _ => .ret .panic

/-- L3669 and L3675: with what `f(v)` returns. -/
def afterF (v : V) : Option V → Pc V
  | some w => .cas v w
  | none => .ret (.err v)

/-- L3670-3673: with what `compare_exchange_weak` returns. -/
def afterCas : Res V → Pc V
  | .ok x => .ret (.ok x)
  | .err v => .head v
  | _ => .ret .panic

/-- A call in progress: another operation, or `fetch_update`. -/
inductive Fr (K V I P : Type) where
  | call (i : I)
  | wait (i : I)
  | got (p : P)
  | upd (k : K) (set fetch : MemOrd) (pc : Pc V)

/-- A thread can make a call when it is in none, or inside a closure. -/
def CanCall {K V I P : Type} : List (Fr K V I P) → Prop
  | [] => True
  | .upd _ _ _ (.body _) :: _ => True
  | _ => False

/-- Threads running programs with `fetch_update` over an implementation of which only the histories are known.  First list: the calls of
the implementation and its answers; second list: what the user sees. -/
inductive Run {K V I P : Type} (M : Methods K V I P) :
    List (Object.Ev I P) → List (Ev K V I P) → (Tid → List (Fr K V I P)) → Prop where
  | nil : Run M [] [] (fun _ => [])
  | inv {hi ho w} (x : Run M hi ho w) (t : Tid) (i : I) (h : CanCall (w t)) :
      Run M hi (ho ++ [.inv t i]) (Function.update w t (.call i :: w t))
  | call {hi ho w} (x : Run M hi ho w) (t : Tid) (i : I) (st : List (Fr K V I P)) (h : w t = .call i :: st) :
      Run M (hi ++ [.inv t i]) ho (Function.update w t (.wait i :: st))
  | answer {hi ho w} (x : Run M hi ho w) (t : Tid) (i : I) (p : P) (st : List (Fr K V I P)) (h : w t = .wait i :: st) :
      Run M (hi ++ [.ret t p]) ho (Function.update w t (.got p :: st))
  | ret {hi ho w} (x : Run M hi ho w) (t : Tid) (p : P) (st : List (Fr K V I P)) (h : w t = .got p :: st) :
      Run M hi (ho ++ [.ret t p]) (Function.update w t st)
  | update {hi ho w} (x : Run M hi ho w) (t : Tid) (k : K) (set fetch : MemOrd) (h : CanCall (w t)) :
      Run M hi (ho ++ [.update t k set fetch]) (Function.update w t (.upd k set fetch .load :: w t))
  | load {hi ho w} (x : Run M hi ho w) (t : Tid) (k : K) (set fetch : MemOrd) (st : List (Fr K V I P))
      (h : w t = .upd k set fetch .load :: st) (i : I) (hm : M.load k fetch i) :
      Run M (hi ++ [.inv t i]) ho (Function.update w t (.upd k set fetch .waitLoad :: st))
  | loaded {hi ho w} (x : Run M hi ho w) (t : Tid) (k : K) (set fetch : MemOrd) (p : P) (st : List (Fr K V I P))
      (h : w t = .upd k set fetch .waitLoad :: st) :
      Run M (hi ++ [.ret t p]) ho (Function.update w t (.upd k set fetch (afterLoad (M.ans p)) :: st))
  | ask {hi ho w} (x : Run M hi ho w) (t : Tid) (k : K) (set fetch : MemOrd) (v : V) (st : List (Fr K V I P))
      (h : w t = .upd k set fetch (.head v) :: st) :
      Run M hi (ho ++ [.ask t v]) (Function.update w t (.upd k set fetch (.body v) :: st))
  | reply {hi ho w} (x : Run M hi ho w) (t : Tid) (k : K) (set fetch : MemOrd) (v : V) (a : Option V) (st : List (Fr K V I P))
      (h : w t = .upd k set fetch (.body v) :: st) :
      Run M hi (ho ++ [.reply t a]) (Function.update w t (.upd k set fetch (afterF v a) :: st))
  | panic {hi ho w} (x : Run M hi ho w) (t : Tid) (k : K) (set fetch : MemOrd) (v : V) (st : List (Fr K V I P))
      (h : w t = .upd k set fetch (.body v) :: st) :
      Run M hi (ho ++ [.panic t]) (Function.update w t (.upd k set fetch (.ret .panic) :: st))
  | cas {hi ho w} (x : Run M hi ho w) (t : Tid) (k : K) (set fetch : MemOrd) (v n : V) (st : List (Fr K V I P))
      (h : w t = .upd k set fetch (.cas v n) :: st) (i : I) (hm : M.compareExchangeWeak k v n set fetch i) :
      Run M (hi ++ [.inv t i]) ho
        (Function.update w t (.upd k set fetch (.waitCas v n) :: st))
  | cased {hi ho w} (x : Run M hi ho w) (t : Tid) (k : K) (set fetch : MemOrd) (v n : V) (p : P) (st : List (Fr K V I P))
      (h : w t = .upd k set fetch (.waitCas v n) :: st) :
      Run M (hi ++ [.ret t p]) ho (Function.update w t (.upd k set fetch (afterCas (M.ans p)) :: st))
  | finish {hi ho w} (x : Run M hi ho w) (t : Tid) (k : K) (set fetch : MemOrd) (r : Out V) (st : List (Fr K V I P))
      (h : w t = .upd k set fetch (.ret r) :: st) :
      Run M hi (ho ++ [.finish t r]) (Function.update w t st)

end Verif.Update
