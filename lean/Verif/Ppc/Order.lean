import Verif.Ppc.Code
import Verif.Spec.PpcOrder
/-!
# The events of a call of the PowerPC64 back end (C40)
-/
set_option autoImplicit false
namespace Verif.Ppc
open Verif.Lf Verif.Asm Verif.Wide

/-- What was computed from the most recent read. -/
structure Taint where
  reg : Reg → Bool
  cr0 : Bool
  cr1 : Bool
  ca : Bool

def Taint.set (τ : Taint) (q : Reg) (b : Bool) : Taint :=
  { τ with reg := fun p => if p = q then b else τ.reg p }

/-- Nothing. -/
def Taint.none : Taint := ⟨fun _ => false, false, false, false⟩

/-- Registers holding what a read into the pair starting at `d` returned. -/
def Taint.read (d : Reg) : Taint :=
  ⟨fun p => p == d || d.next == some p, false, false, false⟩

/-- How an instruction passes dependencies on: from its source to its target operands. -/
def Ins.taint (i : Ins) (τ : Taint) : Taint :=
  match i with
  | .lq d _ | .lqarx d _ => .read d
  | .stqcx _ _ => { τ with cr0 := true }
  | .cmpw a b | .cmpld a b => { τ with cr0 := τ.reg a || τ.reg b }
  | .cmpdCr1 a b => { τ with cr1 := τ.reg a || τ.reg b }
  | .xor d a b | .and d a b | .nand d a b | .or d a b => τ.set d (τ.reg a || τ.reg b)
  | .orDot d a b => { τ.set d (τ.reg a || τ.reg b) with cr0 := τ.reg a || τ.reg b }
  | .mfcr d => τ.set d (τ.cr0 || τ.cr1)
  | .addc d a b | .subc d a b => { τ.set d (τ.reg a || τ.reg b) with ca := τ.reg a || τ.reg b }
  | .adde d a b | .subfe d a b =>
    { τ.set d (τ.reg a || τ.reg b || τ.ca) with ca := τ.reg a || τ.reg b || τ.ca }
  | .subfic d a _ => { τ.set d (τ.reg a) with ca := τ.reg a }
  | .subfze d a => { τ.set d (τ.reg a || τ.ca) with ca := τ.reg a || τ.ca }
  | .isel d a b bc => τ.set d (τ.reg a || τ.reg b || if bc < 4 then τ.cr0 else τ.cr1)
  | .fence _ | .stq _ _ | .bne _ | .unreachable => τ

/-- Events of an instruction; `wrote` says whether a conditional store stored. -/
def Ins.events (τ : Taint) (wrote : Bool) : Ins → List Ev
  | .lq _ _ | .lqarx _ _ => [.rd]
  | .stq _ _ => [.wr]
  | .stqcx _ _ => if wrote then [.wr] else []
  | .fence .sync => [.sync]
  | .fence .lwsync => [.lwsync]
  | .fence .isync => [.isync]
  | .bne _ => [.br τ.cr0]
  | _ => []

/-- A call can go from `(pc, s)` to its end in state `s'` with the given events, whatever other threads
do (every access may find any value). -/
inductive Trace (E : Env) (c : Call) : Nat → St → Taint → List Ev → St → Prop where
  | done {pc s τ} (h : (c.block E).code[pc]? = none) : Trace E c pc s τ [] s
  | go {pc s τ i s1 t s'} (hp : (c.block E).code[pc]? = some i)
      (h : i.sem E.cpu c.r0 c.addr s = .go s1) (r : Trace E c (pc + 1) s1 (i.taint τ) t s') :
      Trace E c pc s τ (i.events τ false ++ t) s'
  | br {pc s τ i b n t s'} (hp : (c.block E).code[pc]? = some i)
      (h : i.sem E.cpu c.r0 c.addr s = .br b n)
      (r : Trace E c (if b then n else pc + 1) s (i.taint τ) t s') :
      Trace E c pc s τ (i.events τ false ++ t) s'
  | acc {pc s τ i a k x x' v t s'} (hp : (c.block E).code[pc]? = some i)
      (h : i.sem E.cpu c.r0 c.addr s = .acc a k) (hs : a.sem x x' v)
      (r : Trace E c (pc + 1) (k v) (i.taint τ) t s') : Trace E c pc s τ (i.events τ true ++ t) s'
  | ll {pc s τ i k x t s'} (hp : (c.block E).code[pc]? = some i)
      (h : i.sem E.cpu c.r0 c.addr s = .ll k)
      (r : Trace E c (pc + 1) (k x) (i.taint τ) t s') : Trace E c pc s τ (i.events τ false ++ t) s'
  | sc {pc s τ i v k ok t s'} (hp : (c.block E).code[pc]? = some i)
      (h : i.sem E.cpu c.r0 c.addr s = .sc v k)
      (r : Trace E c (pc + 1) (k ok) (i.taint τ) t s') : Trace E c pc s τ (i.events τ ok ++ t) s'

/-- The events and result of a completed call. -/
def Call.Events (E : Env) (c : Call) (t : List Ev) (r : Res (BitVec 128)) : Prop :=
  ∃ s, Trace E c 0 (c.entry E) .none t s ∧ r = c.result E s

end Verif.Ppc
