import Verif.WM.Code
import Verif.Spec.WeakMemory
import Verif.Fallback.Facts
import Mathlib.Tactic.Order
import Mathlib.Data.Finset.Card
/-!
# Invariant of the lock-based atomics in weak memory (proof internals)

Ghost state.  Every lock goes through *epochs* `0, 1, …, E`: epoch `e` begins with the write `tau e`
of an even stamp to the lock word ("free"); the swap that takes the lock then writes at `sig e`,
directly after it.  Every object has versions `0, …, K`; version `k` was published with the free write
of epoch `vt k`, its words were written at `ct i k`.
-/
set_option autoImplicit false
set_option linter.unusedSectionVars false
namespace Verif.WM.Lock
open Verif.Fallback

/-- Threads know at least what they knew at their last release fence; an acquire fence never forgets. -/
structure _root_.Verif.WM.TV.Wf {L : Type} (v : TV L) : Prop where
  rel : v.rel ≤ v.cur
  cur : v.cur ≤ v.acq

/-- Ghost state of a lock. -/
structure LG where
  E : Nat
  held : Option Tid
  tau : Nat → Ts
  sig : Nat → Ts
  /-- number of completed writes before epoch `e` -/
  wr : Nat → Nat
  /-- view carried by the free write of epoch `e` -/
  fv : Nat → View CL
  /-- timestamps of the writes to `state_hi` -/
  hts : Nat → Ts
  /-- the holder has already advanced `state_hi` -/
  hip : Bool

/-- Ghost state of an object. -/
structure OG (V : Type) where
  K : Nat
  vt : Nat → Nat
  ct : Nat → Nat → Ts
  val : Nat → V
  /-- view of the version in the specification -/
  av : Nat → View Native.Loc
  /-- number of words of version `K + 1` already written -/
  pend : Nat

def vlo (l : Nat) : CL := .mem (.lo l)
def vhi (l : Nat) : CL := .mem (.hi l)
def vch (o : Obj) (i : Nat) : CL := .mem (.chunk o i)

variable {V X : Type} [DecidableEq V] (c : Cfg V)

def LG.hcount (L : LG) : Nat := (L.wr L.E + if L.hip then 1 else 0) / c.B

/-- Has the free write of epoch `e` been followed by a lock-taking swap? -/
def LG.taken (L : LG) (e : Nat) : Prop := e < L.E ∨ e = L.E ∧ L.held.isSome

structure LockInv (L : LG) (l : Nat) (ml mh : List (Msg CL (BitVec c.W))) : Prop where
  tau0 : L.tau 0 = 0
  wr0 : L.wr 0 = 0
  wrS : ∀ e, e < L.E → L.wr (e + 1) = L.wr e ∨ L.wr (e + 1) = L.wr e + 1
  msgs : ∀ m ∈ ml, m.val = 1 ∨ ∃ e, e ≤ L.E ∧ m.ts = L.tau e ∧ m.val = c.stamp (L.wr e) ∧ m.view = L.fv e
  pos : ∀ m ∈ ml, m.frm < m.ts ∨ m.ts = 0
  last : ∃ m ∈ ml, m.ts = L.tau L.E
  tausig : ∀ e, L.taken e → L.tau e < L.sig e
  took : ∀ e, L.taken e → ∃ m ∈ ml, m.frm = L.tau e ∧ m.ts = L.sig e
  sigtau : ∀ e, e < L.E → L.sig e < L.tau (e + 1)
  contig : ∀ m ∈ ml, L.tau L.E < m.ts → ∃ m' ∈ ml, m'.ts = m.frm ∧ L.tau L.E ≤ m'.ts
  fvlo : ∀ e, e ≤ L.E → L.fv e (vlo l) = L.tau e
  hip : L.hip = true → L.held.isSome ∧ (L.wr L.E + 1) % c.B = 0
  himsgs : c.wide = true → ∀ m ∈ mh, ∃ j, m.ts = L.hts j ∧ m.val = BitVec.ofNat c.W j ∧ j ≤ L.hcount c ∧
    (j = 0 ∨ ∃ e, L.wr e + 1 = j * c.B ∧ L.sig e ≤ m.view (vlo l) ∧
      (e < L.E ∧ L.wr (e + 1) = L.wr e + 1 ∨ e = L.E ∧ L.hip = true))
  hmono : c.wide = true → ∀ j, j < L.hcount c → L.hts j < L.hts (j + 1)
  fvhi : c.wide = true → ∀ e, e ≤ L.E → L.hts (L.wr e / c.B) ≤ L.fv e (vhi l)

structure ObjInv (L : LG) (O : OG V) (o : Obj) (mc : Nat → List (Msg CL (BitVec c.W)))
    (mo : List (Msg Native.Loc V)) : Prop where
  vt0 : O.vt 0 = 0
  vtmono : ∀ k, k < O.K → O.vt k < O.vt (k + 1)
  vtE : ∀ k, k ≤ O.K → O.vt k ≤ L.E
  vtwr : ∀ k e, k ≤ O.K → O.vt k = e + 1 → L.wr (e + 1) = L.wr e + 1
  chunks : ∀ i, ∀ m ∈ mc i, ∃ k, m.ts = O.ct i k ∧ (k ≤ O.K ∨ k = O.K + 1 ∧ i < O.pend) ∧
    m.val = c.split o (O.val k) i ∧ ∀ e, O.vt k = e + 1 → L.sig e ≤ m.view (vlo (c.lockOf o))
  ctmono : ∀ i k, i < c.n o → k < O.K → O.ct i k < O.ct i (k + 1)
  ctpend : ∀ i, i < c.n o → i < O.pend → O.ct i O.K < O.ct i (O.K + 1)
  vtpend : O.pend ≠ 0 → O.vt (O.K + 1) = L.E + 1 ∧ L.held.isSome
  fvct : ∀ i k e, i < c.n o → k ≤ O.K → e ≤ L.E → O.vt k ≤ e → O.ct i k ≤ L.fv e (vch o i)
  amem : ∀ m, m ∈ mo ↔ ∃ k, k ≤ O.K ∧ m = ⟨((k - 1 : Nat) : Ts), (k : Ts), O.val k, O.av k⟩

/-- The specification's view `va` is justified by the implementation's view `vc`. -/
def VLe (lk : Nat → LG) (ob : Obj → OG V) (va : View Native.Loc) (vc : View CL) : Prop :=
  (∀ a, va (.ext a) ≤ vc (ext a)) ∧
  ∀ o, ∃ k, k ≤ (ob o).K ∧ va (.obj o) ≤ (k : Ts) ∧
    (lk (c.lockOf o)).tau ((ob o).vt k) ≤ vc (vlo (c.lockOf o))

/-- Does the operation write when the contents are `x`? -/
def Writes (op : Op V) (x : V) : Prop :=
  match op with
  | .load _ => False
  | .cas cur _ _ _ => x = cur
  | _ => True

/-- What the lock holder knows. -/
structure Hold (L : LG) (l : Nat) (v : TV CL) (prev : BitVec c.W) : Prop where
  prev : prev = c.stamp (L.wr L.E)
  sig : L.sig L.E ≤ v.cur (vlo l)
  fv : L.fv L.E ≤ v.cur

/-- No object of lock `l` other than `o` is being written. -/
def Others (ob : Obj → OG V) (l : Nat) (o : Obj) : Prop :=
  ∀ o', o' ≠ o → c.lockOf o' = l → (ob o').pend = 0

/-- No object of lock `l` is being written. -/
def NoPend (ob : Obj → OG V) (l : Nat) : Prop := ∀ o, c.lockOf o = l → (ob o).pend = 0

/-- `i` words of the new version have been written. -/
structure Wr (L : LG) (ob : Obj → OG V) (k : Call V) (v : TV CL) (i : Nat) (r : Res V) : Prop where
  oth : Others c ob (c.lockOf k.obj) k.obj
  pend : (ob k.obj).pend = i
  ct : ∀ j, j < i → (ob k.obj).ct j ((ob k.obj).K + 1) ≤ v.cur (vch k.obj j)
  vt : (ob k.obj).vt ((ob k.obj).K + 1) = L.E + 1
  writes : Writes k.op ((ob k.obj).val (ob k.obj).K)
  res : k.op.onCell ((ob k.obj).val (ob k.obj).K) = ((ob k.obj).val ((ob k.obj).K + 1), r)

/-- Knowledge of the lock holder, by program point. -/
def HInv (lk : Nat → LG) (ob : Obj → OG V) (v : TV CL) : Pc V c.W → Prop
  | .relFence k p => Hold c (lk (c.lockOf k.obj)) (c.lockOf k.obj) v p ∧ NoPend c ob (c.lockOf k.obj) ∧
      (lk (c.lockOf k.obj)).hip = false
  | .naRead k p i acc => Hold c (lk (c.lockOf k.obj)) (c.lockOf k.obj) v p ∧
      NoPend c ob (c.lockOf k.obj) ∧ (lk (c.lockOf k.obj)).hip = false ∧
      (lk (c.lockOf k.obj)).sig (lk (c.lockOf k.obj)).E ≤ v.rel (vlo (c.lockOf k.obj)) ∧ i < c.n k.obj ∧
      ∀ j, j < i → acc j = c.split k.obj ((ob k.obj).val (ob k.obj).K) j
  | .wrChunk k p i new r => Hold c (lk (c.lockOf k.obj)) (c.lockOf k.obj) v p ∧
      (lk (c.lockOf k.obj)).hip = false ∧
      (lk (c.lockOf k.obj)).sig (lk (c.lockOf k.obj)).E ≤ v.rel (vlo (c.lockOf k.obj)) ∧ i < c.n k.obj ∧
      Wr c (lk (c.lockOf k.obj)) ob k v i r ∧ new = c.split k.obj ((ob k.obj).val ((ob k.obj).K + 1))
  | .hiLoad k p r => Hold c (lk (c.lockOf k.obj)) (c.lockOf k.obj) v p ∧
      (lk (c.lockOf k.obj)).hip = false ∧ Wr c (lk (c.lockOf k.obj)) ob k v (c.n k.obj) r ∧
      c.wide = true ∧ p + 2 = 0
  | .hiStore k p h r => Hold c (lk (c.lockOf k.obj)) (c.lockOf k.obj) v p ∧
      (lk (c.lockOf k.obj)).hip = false ∧ Wr c (lk (c.lockOf k.obj)) ob k v (c.n k.obj) r ∧
      c.wide = true ∧ p + 2 = 0 ∧
      h = BitVec.ofNat c.W ((lk (c.lockOf k.obj)).wr (lk (c.lockOf k.obj)).E / c.B)
  | .dropStore k p r => Hold c (lk (c.lockOf k.obj)) (c.lockOf k.obj) v p ∧
      Wr c (lk (c.lockOf k.obj)) ob k v (c.n k.obj) r ∧
      (c.wide = true → (lk (c.lockOf k.obj)).hip = decide (p + 2 = 0) ∧
        (lk (c.lockOf k.obj)).hts (((lk (c.lockOf k.obj)).wr (lk (c.lockOf k.obj)).E + 1) / c.B) ≤
          v.cur (vhi (c.lockOf k.obj)))
  | .abortStore k p r => Hold c (lk (c.lockOf k.obj)) (c.lockOf k.obj) v p ∧
      NoPend c ob (c.lockOf k.obj) ∧ (lk (c.lockOf k.obj)).hip = false ∧
      ¬ Writes k.op ((ob k.obj).val (ob k.obj).K) ∧
      k.op.onCell ((ob k.obj).val (ob k.obj).K) = ((ob k.obj).val (ob k.obj).K, r)
  | _ => True

/-- What a reader knows after loading the lock word: it read the free write of epoch `e`. -/
structure Rd (L : LG) (v : TV CL) (h lo : BitVec c.W) (e : Nat) : Prop where
  le : e ≤ L.E
  lo : lo = c.stamp (L.wr e)
  fv : L.fv e ≤ v.cur
  hi : c.wide = true → ∃ j, h = BitVec.ofNat c.W j ∧ j * c.B ≤ L.wr e

/-- The words `< i` of `acc` come from writes whose views know no more of the lock word than `b`. -/
def Chs (mem : Fallback.Loc → List (Msg CL (BitVec c.W))) (L : LG) (o : Obj) (e i : Nat)
    (acc : Nat → BitVec c.W) (b : Ts) : Prop :=
  ∀ j, j < i → ∃ m ∈ mem (.chunk o j), acc j = m.val ∧ L.fv e (vch o j) ≤ m.ts ∧
    m.view (vlo (c.lockOf o)) ≤ b

/-- Knowledge of a reader, by program point. -/
def RInv (lk : Nat → LG) (mem : Fallback.Loc → List (Msg CL (BitVec c.W))) (v : TV CL) :
    Pc V c.W → Prop
  | .optLo k h => c.wide = true → ∃ m ∈ mem (.hi (c.lockOf k.obj)), h = m.val ∧
      m.view (vlo (c.lockOf k.obj)) ≤ v.cur (vlo (c.lockOf k.obj))
  | .optChunk k h lo i acc => i < c.n k.obj ∧ ∃ e, Rd c (lk (c.lockOf k.obj)) v h lo e ∧
      Chs c mem (lk (c.lockOf k.obj)) k.obj e i acc (v.acq (vlo (c.lockOf k.obj)))
  | .valFence k h lo acc => ∃ e, Rd c (lk (c.lockOf k.obj)) v h lo e ∧
      Chs c mem (lk (c.lockOf k.obj)) k.obj e (c.n k.obj) acc (v.acq (vlo (c.lockOf k.obj)))
  | .valLo k h lo acc => ∃ e, Rd c (lk (c.lockOf k.obj)) v h lo e ∧
      Chs c mem (lk (c.lockOf k.obj)) k.obj e (c.n k.obj) acc (v.cur (vlo (c.lockOf k.obj)))
  | .valHi k h lo acc lo' => c.wide = true ∧ (lo' = lo → ∃ e e', Rd c (lk (c.lockOf k.obj)) v h lo e ∧
      e' ≤ (lk (c.lockOf k.obj)).E ∧ lo' = c.stamp ((lk (c.lockOf k.obj)).wr e') ∧
      (lk (c.lockOf k.obj)).fv e' ≤ v.cur ∧ v.cur (vlo (c.lockOf k.obj)) ≤ (lk (c.lockOf k.obj)).tau e' ∧
      Chs c mem (lk (c.lockOf k.obj)) k.obj e (c.n k.obj) acc (v.cur (vlo (c.lockOf k.obj))))
  | _ => True

/-- The specification's program point for each of the implementation's. -/
def APc (pc : Pc V c.W) (a : Native.Pc V) : Prop :=
  match pc with
  | .idle => a = .idle
  | .scPre k => k.op.ordOk = true ∧ ∃ b, a = .todo k.obj k.op b
  | .scPost _ r => ∃ b, a = .fin r b
  | .ret r => a = .fin r false
  | pc => ∃ k, Cfg.pcCall pc = some k ∧ k.op.ordOk = true ∧
      ∃ b, a = .todo k.obj k.op b ∧ (wantsSc k.op = true → b = true)

/-- Only loads read optimistically. -/
def LoadPc : Pc V c.W → Prop
  | .optHi k | .optLo k _ | .optChunk k _ _ _ _ | .valFence k _ _ _ | .valLo k _ _ _
  | .valHi k _ _ _ _ => ∃ ord, k.op = .load ord
  | _ => True

/-- Corresponding writes to a client variable. -/
def MLe (lk : Nat → LG) (ob : Obj → OG V) (ma : Msg Native.Loc X) (mc : Msg CL X) : Prop :=
  ma.frm = mc.frm ∧ ma.ts = mc.ts ∧ ma.val = mc.val ∧ VLe c lk ob ma.view mc.view

/-- Corresponding thread views. -/
structure TLe (lk : Nat → LG) (ob : Obj → OG V) (a : TV Native.Loc) (v : TV CL) : Prop where
  cur : VLe c lk ob a.cur v.cur
  acq : VLe c lk ob a.acq v.acq
  rel : VLe c lk ob a.rel v.rel

structure Inv (lk : Nat → LG) (ob : Obj → OG V) (s : State c X) (a : Native.State V X) (N : Nat) :
    Prop where
  lock : ∀ l, LockInv c (lk l) l (s.mem (.lo l)) (s.mem (.hi l))
  obj : ∀ o, ObjInv c (lk (c.lockOf o)) (ob o) o (fun i => s.mem (.chunk o i)) (a.mo o)
  objv : ∀ o k e, k ≤ (ob o).K → e ≤ (lk (c.lockOf o)).E → (ob o).vt k ≤ e →
    VLe c lk ob ((ob o).av k) ((lk (c.lockOf o)).fv e)
  held : ∀ t l, c.owns (s.pc t) = some l ↔ (lk l).held = some t
  hinv : ∀ t, HInv c lk ob (s.tv t) (s.pc t)
  rinv : ∀ t, RInv c lk s.mem (s.tv t) (s.pc t)
  lpc : ∀ t, LoadPc c (s.pc t)
  free : ∀ l, (lk l).held = none → NoPend c ob l
  markF : ∀ l, (lk l).held = none → ∀ o, c.lockOf o = l → ∀ i u,
    (s.nr (.chunk o i) u : Ts) ≤ (lk l).fv (lk l).E (.rd (.chunk o i) u)
  markH : ∀ l t, (lk l).held = some t → ∀ o, c.lockOf o = l → ∀ i u,
    (s.nr (.chunk o i) u : Ts) ≤ (s.tv t).cur (.rd (.chunk o i) u)
  ext : ∀ x, List.Forall₂ (MLe c lk ob) (a.mx x) (s.mx x)
  tle : ∀ t, TLe c lk ob (a.tv t) (s.tv t)
  sc : VLe c lk ob a.sc s.sc
  wf : ∀ t, (s.tv t).Wf
  apc : ∀ t, APc c (s.pc t) (a.pc t)
  cnt : ∃ (P : Finset Tid) (nl : Nat), (∀ t, t ∈ P ↔ (Cfg.pcCall (s.pc t)).isSome) ∧
    nl + P.card ≤ N ∧ ∀ l, (lk l).wr (lk l).E ≤ nl

end Verif.WM.Lock
