import Verif.Props.Small
import Verif.Props.ComposeEx
/-!
# A concrete run on MSP430 (C61)
-/
set_option autoImplicit false
namespace Verif.Small
open Verif.Object Verif.Lf Verif.Int Verif.Compose

theorem small_passes {T : Target} {w : Nat} {signed : Bool} {I P : Type}
    {calls : Obj × Acc (BitVec w) × Bool → I → (P → Res (BitVec w)) → Prop}
    (op : IOp w) {a dec} (h : T.prog signed op = .one a dec)
    {k : Obj} {i : I} {d : P → Res (BitVec w)} (hc : calls (k, a, T.single signed op a) i d) :
    Passes ((ints T w signed).many Obj) calls i :=
  ⟨(k, op), (k, a, T.single signed op a), fun q => (k, op, .fin (dec q)), d,
    by simp [Client.many, Client.tagged, Compose.Next.tagged, ofCode, Target.code, Prog.code, h, Prog.next, ofNext, Next.at_],
    hc, fun p => ⟨dec (d p), by
      simp [Client.many, Client.tagged, Compose.Next.tagged, ofCode, Target.code, Prog.code, Prog.next, ofNext, Next.at_]⟩⟩

/-- The main program's `add(3)` (one instruction) is interrupted just before that instruction; the handler, which has
interrupts off, does `fetch_add(5)` (disabling and restoring them), with GIE (bit 3) clear all the way. -/
def msp430Run : List (Irq.Cmd 16 1 (BitVec 16)) :=
  [.call 0 (viaOp (word 16) (.rmw (Bin.fn .add 3) .relaxed)) true, .go 0, .irq 1 0x0000,
   .call 0 (viaOp (word 16) (.rmw (Bin.fn .add 5) .seqCst)) false, .go 0, .go 0, .go 0, .go 0, .go 0, .go 0, .go 0, .go 0,
   .go 0, .go 0, .go 0, .go 0, .go 0, .ret, .iret, .go 0, .ret]

/-- The calls in a history, with their tags. -/
def reqInvs {n w : Nat} {C : Type} : List (Object.Ev (Obj × Irq.Req (Irq.Val n C) × BitVec w) (Res (Irq.Val n C) × BitVec w)) →
    List (Obj × Irq.Req (Irq.Val n C))
  | [] => []
  | .inv _ (o, q, _) :: h => (o, q) :: reqInvs h
  | _ :: h => reqInvs h

theorem mem_reqInvs {n w : Nat} {C : Type} {t : Tid} {i : Obj × Irq.Req (Irq.Val n C) × BitVec w} :
    ∀ {h : List (Object.Ev (Obj × Irq.Req (Irq.Val n C) × BitVec w) (Res (Irq.Val n C) × BitVec w))},
      Object.Ev.inv t i ∈ h → (i.1, i.2.1) ∈ reqInvs h
  | [], hm => by cases hm
  | .inv u (o, op, sr) :: h, hm => by
    simp only [List.mem_cons, Object.Ev.inv.injEq] at hm
    rcases hm with ⟨_, rfl⟩ | hm
    · simp [reqInvs]
    · simp [reqInvs, mem_reqInvs hm]
  | .ret u r :: h, hm => by
    simp only [List.mem_cons, reduceCtorEq, false_or] at hm
    simp [reqInvs, mem_reqInvs hm]

/-- That is a history of the public `add` and `fetch_add`; both took effect. -/
example : ∃ hi s ho w, Exec (Irq.Step (Target.cfg .msp430 1 (BitVec 16))) (Irq.init 0 (fun _ => word 16 100) 0x8 false) hi s ∧
    Run ((ints .msp430 (2 ^ 4) true).many Obj) (ReqCalls (word (2 ^ 4))) hi ho w ∧ ho.length = 4 ∧
    s.mem 0 0 = 108 ∧ Irq.msp430.enabled s.sr = true := by
  cases hs : Irq.sched (Target.cfg .msp430 1 (BitVec 16)) msp430Run (Irq.init 0 (fun _ => word 16 100) 0x8 false) with
  | none =>
    exact absurd (congrArg Option.isNone hs) (by decide +kernel)
  | some x =>
    have e : (Irq.sched (Target.cfg .msp430 1 (BitVec 16)) msp430Run (Irq.init 0 (fun _ => word 16 100) 0x8 false)).map
        (fun x => reqInvs x.1) =
      some [(0, ⟨viaOp (word 16) (.rmw (Bin.fn .add 3) .relaxed), true⟩),
        (0, ⟨viaOp (word 16) (.rmw (Bin.fn .add 5) .seqCst), false⟩)] := rfl
    have hl : (Irq.sched (Target.cfg .msp430 1 (BitVec 16)) msp430Run (Irq.init 0 (fun _ => word 16 100) 0x8 false)).map
      (fun x => (x.1.length, x.2.mem 0 0, Irq.msp430.enabled x.2.sr)) = some (4, 108, true) := by decide +kernel
    rw [hs] at e hl
    simp only [Option.map_some, Option.some.injEq, Prod.mk.injEq] at e hl
    have hx := Irq.sched_sound _ _ hs
    obtain ⟨m', ⟨s, hs', _⟩, _⟩ := Irq.irq_linearizable (Target.cfg .msp430 1 (BitVec 16)) .msp430 0 _ _ _ _ _ hx
    obtain ⟨ho, w, hr, h1, _⟩ := passes (c := (ints .msp430 (2 ^ 4) true).many Obj)
      (calls := ReqCalls (word (2 ^ 4))) hs' (by
      intro t i hm
      have := mem_reqInvs hm
      rw [e] at this
      obtain ⟨o, ⟨op, nat⟩, sr⟩ := i
      simp only [List.mem_cons, List.not_mem_nil, or_false, Prod.mk.injEq] at this
      rcases this with ⟨rfl, h⟩ | ⟨rfl, h⟩ <;> cases h
      · exact small_passes (.bin .add 3 .relaxed) (a := .op (.rmw (Bin.fn .add 3) .relaxed)) rfl ⟨rfl, ⟨_, .op _, rfl⟩, rfl⟩
      · exact small_passes (.fetchBin .add 5 .seqCst) (a := .op (.rmw (Bin.fn .add 5) .seqCst)) rfl ⟨rfl, ⟨_, .op _, rfl⟩, rfl⟩)
    exact ⟨_, _, ho, w, hx, hr, h1.trans hl.1, hl.2.1, hl.2.2⟩

/-- The instruction does overflow: `add.b #1, 0(dst)` on 255 sets Z and C and keeps GIE. -/
example : (Ins.alu .add 1 : Ins 8).exec 255 0x8 = (0, 0xB, none) := by decide +kernel
/-- `sub.w #3, 0(dst)` on 2 is -1: N set, no carry. -/
example : (Ins.alu .sub 3 : Ins 16).exec 2 0x8 = (0xFFFF, 0xC, none) := by decide +kernel

end Verif.Small
