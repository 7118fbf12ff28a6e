import Verif.Lf.Machine
/-!
# Specification: memory of an x86 processor (x86-TSO), and native accesses to it

Owens, Sarkar, Sewell: "A better x86 memory model: x86-TSO". Every thread has a first-in first-out
buffer of stores that have not reached memory yet; a load takes the newest store to its address from the
thread's own buffer, otherwise the value in memory; a locked instruction and `mfence` wait until the
buffer of the thread is empty; the oldest store of any buffer may reach memory at any time.
Nothing in this file models code.
-/
set_option autoImplicit false
namespace Verif.Tso
open Verif.Object Verif.Lf

/-- Memory and store buffers, oldest store first. `K`: addresses of objects, `V`: values. -/
structure Mem (K V : Type) where
  mem : K → V
  buf : Tid → List (K × V)

variable {K V O R : Type} [DecidableEq K]

/-- All buffers are empty. -/
def Mem.flat (m : K → V) : Mem K V := { mem := m, buf := fun _ => [] }

/-- The newest store to `k` in a buffer. -/
def newest (k : K) : List (K × V) → Option V
  | [] => none
  | p :: b => match newest k b with
    | some v => some v
    | none => if p.1 = k then some p.2 else none

/-- What a load of thread `t` finds at `k`. -/
def Mem.view (m : Mem K V) (t : Tid) (k : K) : V := (newest k (m.buf t)).getD (m.mem k)

/-- A store of thread `t` goes into its buffer. -/
def Mem.push (m : Mem K V) (t : Tid) (k : K) (v : V) : Mem K V :=
  { m with buf := Function.update m.buf t (m.buf t ++ [(k, v)]) }

/-- Memory changes at `k`, buffers do not. -/
def Mem.write (m : Mem K V) (k : K) (v : V) : Mem K V := { m with mem := Function.update m.mem k v }

/-- The oldest store of some buffer reaches memory. -/
inductive Drain (m : Mem K V) : Mem K V → Prop where
  | mk {t : Tid} {k : K} {v : V} {b : List (K × V)} (h : m.buf t = (k, v) :: b) :
      Drain m { mem := Function.update m.mem k v, buf := Function.update m.buf t b }

/-! ## Native operations -/

/-- How an operation accesses memory. -/
inductive Cls (V : Type) where
  /-- one load -/
  | load
  /-- one store; `wait`: then the buffer is waited for (a sequentially consistent store) -/
  | store (v : V) (wait : Bool)
  /-- one locked instruction -/
  | rmw
  /-- no access, only wait for the buffer -/
  | fence
deriving DecidableEq

/-- Progress of a call. -/
inductive Loc (O R : Type) where
  | pending (op : O)
  | wait (r : R)
  | done (r : R)

/-- Steps of thread `t`, with an operation on `k`. `S` says what the operations do to a single cell. (A
thread that is between calls does not hold up its buffer: the `drain` of any buffer may happen while any
call is under way.) -/
inductive Native (S : Spec V O R) (cls : O → Cls V) (t : Tid) (k : K) :
    Loc O R → Mem K V → Loc O R → Mem K V → Prop where
  | drain {l m m'} (h : Drain m m') : Native S cls t k l m l m'
  | load {op m r} (hc : cls op = .load) (h : S.sem op (m.view t k) (m.view t k) r) :
      Native S cls t k (.pending op) m (.done r) m
  | store {op m v r} (hc : cls op = .store v false) (h : ∀ x, S.sem op x v r) :
      Native S cls t k (.pending op) m (.done r) (m.push t k v)
  | storeWait {op m v r} (hc : cls op = .store v true) (h : ∀ x, S.sem op x v r) :
      Native S cls t k (.pending op) m (.wait r) (m.push t k v)
  | waited {m r} (h : m.buf t = []) : Native S cls t k (.wait r) m (.done r) m
  | rmw {op m x r} (hc : cls op = .rmw) (hb : m.buf t = []) (h : S.sem op (m.mem k) x r) :
      Native S cls t k (.pending op) m (.done r) (m.write k x)
  | fence {op m r} (hc : cls op = .fence) (hb : m.buf t = []) (h : S.sem op (m.mem k) (m.mem k) r) :
      Native S cls t k (.pending op) m (.done r) m

/-- Native operations on many objects. -/
def native (K : Type) [DecidableEq K] (S : Spec V O R) (cls : O → Cls V) : Sys (Mem K V) (K × Loc O R) (K × O) R where
  start _ op := (op.1, .pending op.2)
  step t l m l' m' := l'.1 = l.1 ∧ Native S cls t l.1 l.2 m l'.2 m'
  ret l := match l.2 with
    | .done r => some r
    | _ => none

/-! ## Sequential consistency of a history -/

/-- The calls of thread `t`, in order. -/
def calls (t : Tid) : List (Object.Ev O R) → List O
  | [] => []
  | .inv u op :: h => if u = t then op :: calls t h else calls t h
  | .ret _ _ :: h => calls t h

/-- The results of thread `t`, in order. -/
def results (t : Tid) : List (Object.Ev O R) → List R
  | [] => []
  | .inv _ _ :: h => results t h
  | .ret u r :: h => if u = t then r :: results t h else results t h

/-- An operation done by a thread, with its result. -/
structure Act (O R : Type) where
  t : Tid
  op : O
  r : R

/-- The actions, one after another, are correct for the object. -/
inductive Legal {C : Type} (S : Spec C O R) : C → List (Act O R) → C → Prop where
  | nil (c) : Legal S c [] c
  | snoc {c c' c'' l a} (h : Legal S c l c') (h' : S.sem a.op c' c'' a.r) : Legal S c (l ++ [a]) c''

/-- Those of one thread. -/
def only (t : Tid) (l : List (Act O R)) : List (Act O R) := l.filter fun a => a.t == t

/-- The history is sequentially consistent: there is one order of operations that is correct for the
object and in which each thread's operations and results are in program order. Every operation that
has returned is in it; one that has not may be. -/
def SeqConsistent {C : Type} (S : Spec C O R) (c : C) (h : List (Object.Ev O R)) : Prop :=
  ∃ l c', Legal S c l c' ∧ ∀ t,
    (only t l).map Act.op <+: calls t h ∧ results t h <+: (only t l).map Act.r

/-- The operation waits for the buffer. -/
def Cls.waits : Cls V → Bool
  | .store _ w => w
  | .rmw | .fence => true
  | .load => false

/-- In program order, between a store that is not waited for and any later load there is an operation
that waits: a fence, a locked instruction or a waiting store. -/
def Fenced (cls : O → Cls V) (l : List O) : Prop :=
  ∀ (i j : Nat) (p q : O) (v : V), i < j → l[i]? = some p → l[j]? = some q → cls p = .store v false →
    cls q = .load → ∃ (k : Nat) (w : O), i < k ∧ k < j ∧ l[k]? = some w ∧ (cls w).waits = true

end Verif.Tso
