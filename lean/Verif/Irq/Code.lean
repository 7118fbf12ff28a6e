import Verif.Irq.Arch
import Mathlib.Data.Fintype.Basic
/-!
# Atomics by disabling interrupts, single core (`src/imp/interrupt/mod.rs`)

One core runs a program; when interrupts are enabled, at any instruction boundary a handler may start
on top of whatever is running (also on top of another handler), use the same atomics, and return.
An object is `n` chunks (a value wider than a register is read and written in several instructions,
in any order, each chunk once).  Operations are those of `Verif.Op`; `rmw f` covers `fetch_add`, `fetch_nand`, ….
-/
namespace Verif.Irq
open Verif.Object

/-- A value of an object: its chunks. -/
abbrev Val (n : Nat) (C : Type) := Fin n → C

/-- Configuration. -/
structure Cfg (n : Nat) (C : Type) where
  arch : Arch
  /-- do the native operations check their ordering argument?  All but `armv4t.rs` L111-L146 do. -/
  checked : Bool

/-- What a method asks for.  `native`: the method is one indivisible instruction: `native_load_store`
(`mod.rs` L177-L189), the AMO / RMW instructions of `riscv.rs` and `avr.rs`, `msp430.rs` L84-L283;
otherwise it disables interrupts.  Which method is which: `Small/Code.lean`. -/
structure Req (V : Type) where
  op : Op V
  native : Bool

/-- The operation with its orderings replaced by `SeqCst` (which every operation accepts). -/
def force {V : Type} : Op V → Op V
  | .load _ => .load .seqCst
  | .store v _ => .store v .seqCst
  | .swap v _ => .swap v .seqCst
  | .cas c d _ _ => .cas c d .seqCst .seqCst
  | .rmw f _ => .rmw f .seqCst

variable {n : Nat} {C : Type} [DecidableEq C]

/-- The operation as far as ordering checks are concerned. -/
def Cfg.eff (K : Cfg n C) (q : Req (Val n C)) : Op (Val n C) :=
  if q.native && !K.checked then force q.op else q.op

/-- After reading `x` under the guard: what to write, what to return.  `mod.rs` L139-L155
(`compare_exchange`), L197-L211 (`load`, `store`), L217-L222 (`swap`), L281-L324, L348-L360 and L447-L505
(`fetch_*`). -/
def after (op : Op (Val n C)) (x : Val n C) : Option (Val n C) × Res (Val n C) :=
  match op with
  | .load _ => (none, .val x)
  | .store v _ => (some v, .unit)
  | .swap v _ => (some v, .val x)
  | .cas cur new _ _ => if x = cur then (some new, .ok x) else (none, .err x)
  | .rmw f _ => (some (f x), .val x)

/-- Program points of one operation. `prev`/`tmp` are the registers of `disable`/`restore`. -/
inductive Pc (w n : Nat) (C : Type) where
  /-- before the ordering assertion -/
  | start (o : Obj) (q : Req (Val n C))
  /-- before the single instruction -/
  | native (o : Obj) (op : Op (Val n C))
  /-- before instruction `k` of `disable()` -/
  | dis (o : Obj) (op : Op (Val n C)) (k : Nat) (prev tmp : BitVec w)
  /-- reading (`self.read(&guard)`, L118-L123); `buf`: the chunks read so far -/
  | rd (o : Obj) (op : Op (Val n C)) (prev tmp : BitVec w) (buf : Fin n → Option C)
  /-- writing `new` (`self.write(val, &guard)`, L124-L130); `wrote`: the chunks written so far -/
  | wr (o : Obj) (op : Op (Val n C)) (prev tmp : BitVec w) (new : Val n C) (wrote : Fin n → Bool)
      (r : Res (Val n C))
  /-- before instruction `k` of `restore(prev)` (`Guard::drop`, L72-L87) -/
  | res (k : Nat) (prev tmp : BitVec w) (r : Res (Val n C))
  /-- about to return -/
  | fin (r : Res (Val n C))

/-- Shared memory. -/
abbrev Mem (n : Nat) (C : Type) := Obj → Val n C

/-- One instruction of a running operation: memory, status register, late-disable window, program
point before and after.  Instructions other than those of `disable`/`restore` may change the
computation flags. -/
inductive Act (K : Cfg n C) : Mem n C → BitVec K.arch.w → Bool → Pc K.arch.w n C →
    Mem n C → BitVec K.arch.w → Bool → Pc K.arch.w n C → Prop where
  | panic {m sr win o q sr'} (hf : sr' &&& ~~~K.arch.flags = sr &&& ~~~K.arch.flags)
      (hn : q.native = false ∨ K.checked = true) (ho : q.op.ordOk = false) :
      Act K m sr win (.start o q) m sr' false (.fin .panic)
  | goNative {m sr win o op sr'} (hf : sr' &&& ~~~K.arch.flags = sr &&& ~~~K.arch.flags)
      (ho : op.ordOk = true ∨ K.checked = false) :
      Act K m sr win (.start o ⟨op, true⟩) m sr' false (.native o op)
  | goDis {m sr win o op sr' p t} (hf : sr' &&& ~~~K.arch.flags = sr &&& ~~~K.arch.flags)
      (ho : op.ordOk = true) :
      Act K m sr win (.start o ⟨op, false⟩) m sr' false (.dis o op 0 p t)
  | nat {m sr win o op sr'} (hf : sr' &&& ~~~K.arch.flags = sr &&& ~~~K.arch.flags) :
      Act K m sr win (.native o op)
        (Function.update m o ((force op).onCell (m o)).1) sr' false
        (.fin ((force op).onCell (m o)).2)
  | dis {m sr win o op k p t i} (hi : K.arch.dis[k]? = some i) :
      Act K m sr win (.dis o op k p t) m (i.exec ⟨sr, p, t⟩).sr (i.late && K.arch.enabled sr)
        (.dis o op (k + 1) (i.exec ⟨sr, p, t⟩).prev (i.exec ⟨sr, p, t⟩).tmp)
  | disRd {m sr win o op p t} (h : ∀ v ord, op ≠ .store v ord) :
      Act K m sr win (.dis o op K.arch.dis.length p t) m sr win (.rd o op p t fun _ => none)
  | disWr {m sr win o v ord p t} :
      Act K m sr win (.dis o (.store v ord) K.arch.dis.length p t) m sr win
        (.wr o (.store v ord) p t v (fun _ => false) .unit)
  | rd {m sr win o op p t buf sr'} (i : Fin n)
      (hf : sr' &&& ~~~K.arch.flags = sr &&& ~~~K.arch.flags) (hb : buf i = none) :
      Act K m sr win (.rd o op p t buf) m sr' false
        (.rd o op p t (Function.update buf i (some (m o i))))
  | rdRes {m sr win o op p t buf sr' x r} (hf : sr' &&& ~~~K.arch.flags = sr &&& ~~~K.arch.flags)
      (hx : ∀ i, buf i = some (x i)) (hr : after op x = (none, r)) :
      Act K m sr win (.rd o op p t buf) m sr' false (.res 0 p t r)
  | rdWr {m sr win o op p t buf sr' x v r} (hf : sr' &&& ~~~K.arch.flags = sr &&& ~~~K.arch.flags)
      (hx : ∀ i, buf i = some (x i)) (hr : after op x = (some v, r)) :
      Act K m sr win (.rd o op p t buf) m sr' false (.wr o op p t v (fun _ => false) r)
  | wr {m sr win o op p t new wrote r sr'} (i : Fin n)
      (hf : sr' &&& ~~~K.arch.flags = sr &&& ~~~K.arch.flags) (hb : wrote i = false) :
      Act K m sr win (.wr o op p t new wrote r)
        (Function.update m o (Function.update (m o) i (new i))) sr' false
        (.wr o op p t new (Function.update wrote i true) r)
  | wrRes {m sr win o op p t new wrote r sr'}
      (hf : sr' &&& ~~~K.arch.flags = sr &&& ~~~K.arch.flags) (hw : ∀ i, wrote i = true) :
      Act K m sr win (.wr o op p t new wrote r) m sr' false (.res 0 p t r)
  | res {m sr win k p t r i} (hi : K.arch.res[k]? = some i) :
      Act K m sr win (.res k p t r) m (i.exec ⟨sr, p, t⟩).sr (i.late && K.arch.enabled sr)
        (.res (k + 1) (i.exec ⟨sr, p, t⟩).prev (i.exec ⟨sr, p, t⟩).tmp r)
  | resFin {m sr win p t r} :
      Act K m sr win (.res K.arch.res.length p t r) m sr win (.fin r)

/-- A context: the main program or an active interrupt handler. `saved` is the status register at the
moment it was entered, put back when it returns. -/
structure Frame (w n : Nat) (C : Type) where
  tid : Tid
  saved : BitVec w
  pc : Option (Pc w n C)

/-- The core: the running context on top of the interrupted ones. -/
structure State (w n : Nat) (C : Type) where
  mem : Mem n C
  sr : BitVec w
  win : Bool
  top : Frame w n C
  below : List (Frame w n C)

/-- Steps.  A call event shows the status register (without computation flags) at the call, a return
event the one at the return. -/
inductive Step (K : Cfg n C) : State K.arch.w n C →
    Option (Object.Ev (Obj × Req (Val n C) × BitVec K.arch.w) (Res (Val n C) × BitVec K.arch.w)) →
    State K.arch.w n C → Prop where
  /-- an interrupt is taken; the handler starts with any status register -/
  | irq (s) (t : Tid) (sr') (h : K.arch.enabled s.sr = true ∨ s.win = true)
      (ht : t ∉ (s.top :: s.below).map Frame.tid) :
      Step K s none { s with sr := sr', win := false, top := ⟨t, s.sr, none⟩,
                             below := s.top :: s.below }
  /-- the handler returns -/
  | iret (s) (f rest) (h : s.top.pc = none) (hb : s.below = f :: rest) :
      Step K s none { s with sr := s.top.saved, win := false, top := f, below := rest }
  /-- user code outside atomic operations does anything to the status register -/
  | user (s) (sr' win') (h : s.top.pc = none) : Step K s none { s with sr := sr', win := win' }
  | inv (s) (o q) (h : s.top.pc = none) :
      Step K s (some (.inv s.top.tid (o, q, s.sr &&& ~~~K.arch.flags)))
        { s with top := { s.top with pc := some (.start o q) } }
  | act (s) (pc m' sr' win' pc') (h : s.top.pc = some pc)
      (ha : Act K s.mem s.sr s.win pc m' sr' win' pc') :
      Step K s none { s with mem := m', sr := sr', win := win',
                             top := { s.top with pc := some pc' } }
  | ret (s) (r) (h : s.top.pc = some (.fin r)) :
      Step K s (some (.ret s.top.tid (r, s.sr &&& ~~~K.arch.flags)))
        { s with top := { s.top with pc := none } }

/-- Only the main program (context `t`), between operations. -/
def init {w : Nat} (t : Tid) (m : Mem n C) (sr : BitVec w) (win : Bool) : State w n C :=
  { mem := m, sr := sr, win := win, top := ⟨t, sr, none⟩, below := [] }

/-- Specification: the cell operation, and the status register (without computation flags) at the
return is the one at the call. -/
def spec (K : Cfg n C) : Spec (Mem n C) (Obj × Req (Val n C) × BitVec K.arch.w)
    (Res (Val n C) × BitVec K.arch.w) where
  sem op c c' r := r.2 = op.2.2 ∧
    c' = Function.update c op.1 ((K.eff op.2.1).onCell (c op.1)).1 ∧
    r.1 = ((K.eff op.2.1).onCell (c op.1)).2

end Verif.Irq
