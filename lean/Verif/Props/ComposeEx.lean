import Verif.Props.Compose
import Verif.Compose.Pass
/-!
# Examples for C60: concrete histories
-/
set_option autoImplicit false
namespace Verif.Wide
open Verif.Int Verif.Object Verif.Lf Verif.Compose
open Verif.X86.Fn (ex sb sb_runs st ld)

theorem x86_pass (signed : Bool) {hi ho} {w : Tid → Th (Bool × Pc 128) (Option (Res (BitVec 128)))}
    (hr : Run ((api signed).many Bool) X86Calls hi ho w) (t : Tid) (hw : w t = .idle) (k : Bool) (op : IOp 128)
    {c : X86.Fn.OpCall} {a : Fn 128} {dec} (hb : body signed op = .method (.fn a) dec) (h1 : c.op = a.op) (h2 : c.ord = a.ord)
    (h3 : c.fail = a.fail) (p : Option (Res (BitVec 128))) :
    Run ((api signed).many Bool) X86Calls (hi ++ [.inv t (k, .op c)] ++ [.ret t p])
      (ho ++ [.inv t (k, op)] ++ [.ret t (dec (answer' p))]) w := by
  have hback : Function.update w t .idle = w := by rw [← hw, Function.update_eq_self]
  have r1 := Run.inv hr t (k, op) hw
  have r2 := Run.call r1 t _ (k, a) (fun q => (k, .fin (dec q))) (k, .op c) answer' (Function.update_self ..)
      (by simp [Client.many, api, apiNext, callM, Compose.Next.at_, hb]) ⟨rfl, rfl, c, rfl, h1, h2, h3⟩
  have r3 := Run.answer r2 t _ p (Function.update_self ..)
  have r4 := Run.ret r3 t _ (dec (answer' p)) (Function.update_self ..)
      (by simp [Client.many, api, apiNext, Compose.Next.at_])
  simp only [Function.update_idem, hback] at r4
  exact r4

/-- Store buffering, by the public operations: each of two threads stores `1` (`Release`) and then reads (`SeqCst`) what
was there before the other's store. -/
example : x86History (K := Bool) ex false (fun _ => 0) [.inv 0 (false, .store 1 .release), .ret 0 (.res .unit),
    .inv 0 (true, .load .seqCst), .ret 0 (.res (.val 0)), .inv 1 (true, .store 1 .release), .ret 1 (.res .unit),
    .inv 1 (false, .load .seqCst), .ret 1 (.res (.val 0))] := by
  obtain ⟨s, hs⟩ := sb_runs
  refine ⟨sb, s, fun _ => .idle, hs, ?_⟩
  have r1 := x86_pass false .nil 0 rfl false (.store 1 .release) (dec := .res)
    (c := ⟨.store 1, .release, .relaxed, ⟨by decide, by decide⟩, 0, X86.Fn.g0, X86.Fn.f0⟩) rfl rfl rfl rfl (some .unit)
  have r2 := x86_pass false r1 0 rfl true (.load .seqCst) (dec := .res)
    (c := ⟨.load, .seqCst, .relaxed, ⟨by decide, by decide⟩, 0, X86.Fn.g0, X86.Fn.f0⟩) rfl rfl rfl rfl (some (.val 0))
  have r3 := x86_pass false r2 1 rfl true (.store 1 .release) (dec := .res)
    (c := ⟨.store 1, .release, .relaxed, ⟨by decide, by decide⟩, 0, X86.Fn.g0, X86.Fn.f0⟩) rfl rfl rfl rfl (some .unit)
  have r4 := x86_pass false r3 1 rfl false (.load .seqCst) (dec := .res)
    (c := ⟨.load, .seqCst, .relaxed, ⟨by decide, by decide⟩, 0, X86.Fn.g0, X86.Fn.f0⟩) rfl rfl rfl rfl (some (.val 0))
  exact r4

end Verif.Wide
namespace Verif.Compose
open Verif.Object Verif.Lf

/-- An operation of one access. -/
theorem int_passes {b : Nat} {signed : Bool} {K I P : Type} [DecidableEq K] {calls : K × Acc (BitVec (2 ^ b)) → I → (P → Res (BitVec (2 ^ b))) → Prop}
    (op : Int.IOp (2 ^ b)) (hav : (Int.prog signed .fallback op).isSome = true) {a dec} (h : (Int.prog signed .fallback op).get hav = .one a dec)
    {k : K} {i : I} {d : P → Res (BitVec (2 ^ b))} (hc : calls (k, a) i d) :
    Passes ((ofCode (Int.codeOf (2 ^ b) signed .fallback)).many K) calls i :=
  ⟨(k, ⟨op, hav⟩), (k, a), fun q => (k, .fin (dec q)), d,
    by simp [Client.many, ofCode, Int.codeOf, Prog.code, h, Prog.next, ofNext, Next.at_], hc, fun p => ⟨dec (d p), by
      simp [Client.many, ofCode, Int.codeOf, Prog.code, Prog.next, ofNext, Next.at_]⟩⟩

/-- The calls in a history. -/
def invs {V : Type} : List (Verif.Ev V) → List (Obj × Op V)
  | [] => []
  | .inv _ o op :: h => (o, op) :: invs h
  | _ :: h => invs h

theorem mem_invs {V : Type} {t : Tid} {i : Obj × Op V} : ∀ {h : List (Verif.Ev V)}, Object.Ev.inv t i ∈ h.map toObj → i ∈ invs h
  | [], hm => by cases hm
  | .inv u o op :: h, hm => by
    simp only [List.map_cons, toObj, List.mem_cons, Object.Ev.inv.injEq] at hm
    rcases hm with ⟨_, rfl⟩ | hm
    · simp [invs]
    · simp [invs, mem_invs hm]
  | .ret u r :: h, hm => by
    simp only [List.map_cons, toObj, List.mem_cons, reduceCtorEq, false_or] at hm
    simp [invs, mem_invs hm]

open Fallback in
/-- A history of the lock in which three calls on two objects overlap is one of the integer operations. -/
example : ∃ s ho w, Exec Demo.cfg.StepB Demo.s0 (Demo.cfg.hist Demo.s0 Demo.full) s ∧
    Run ((ofCode (Int.codeOf (2 ^ 7) true .fallback)).many Obj) CellCalls ((Demo.cfg.hist Demo.s0 Demo.full).map toObj) ho w ∧
    ho.length = 6 := by
  have hx := Demo.cfg.run_execB (cells := fun _ => 5) (v0 := fun _ => 2 ^ 63 - 1) (ext := fun _ => 0) Demo.full (Demo.ok.cmds _) (.refl _)
    Demo.full_runs (by decide +kernel)
  obtain ⟨m', s, hs, _⟩ := atomic_object (fallback_linearizable Demo.ok.toSound (fun _ => trivial) hx)
  have e : invs (Demo.cfg.hist Demo.s0 Demo.full) = [(0, .load .acquire), (0, .swap (2 ^ 64 + 7) .seqCst), (1, .store 9 .release)] := rfl
  have hl : (Demo.cfg.hist Demo.s0 Demo.full).length = 6 := rfl
  obtain ⟨ho, w, hr, h1, _⟩ := passes (c := (ofCode (Int.codeOf (2 ^ 7) true .fallback)).many Obj) (calls := CellCalls) hs (by
    intro t i hm
    have : i ∈ invs (Demo.cfg.hist Demo.s0 Demo.full) := mem_invs hm
    rw [e] at this
    simp only [List.mem_cons, List.not_mem_nil, or_false] at this
    rcases this with rfl | rfl | rfl
    · exact int_passes (.load .acquire) rfl rfl ⟨rfl, .op _, rfl⟩
    · exact int_passes (.swap (2 ^ 64 + 7) .seqCst) rfl rfl ⟨rfl, .op _, rfl⟩
    · exact int_passes (.store 9 .release) rfl rfl ⟨rfl, .op _, rfl⟩)
  exact ⟨_, ho, w, hx, hr, by rw [h1, List.length_map]; exact hl⟩

/-- One word. -/
def oneWord : BitVec (2 ^ 4) ≃ Irq.Val 1 (BitVec 16) where
  toFun x := fun _ => x
  invFun v := v 0
  left_inv _ := rfl
  right_inv v := by funext i; rw [Subsingleton.elim i 0]

/-- The same for a critical section: two contexts, `fetch_add` and `load`. -/
example : ∃ hi s ho w, Exec (Cs.Step (Cs.Cfg.feature (n := 1) (C := BitVec 16))) (Cs.init fun _ => oneWord 4) hi s ∧
    Run ((ofCode (Int.codeOf (2 ^ 4) true .fallback)).many Obj) (CsCalls oneWord) hi ho w ∧ ho.length = 2 ∧
    s.mem 0 0 = 7 := by
  let op : Op (Irq.Val 1 (BitVec 16)) := viaOp oneWord (.rmw (Int.Bin.fn .add 3) .seqCst)
  have x0 := Exec.refl (step := Cs.Step (Cs.Cfg.feature (n := 1) (C := BitVec 16))) (Cs.init fun _ => oneWord 4)
  have x2 := Exec.ev x0 (.inv _ 0 0 op rfl)
  have x3 := Exec.tau x2 (.act _ 0 (.start 0 op) _ _ _ rfl (.goAcq rfl rfl rfl))
  have x4 := Exec.tau x3 (.act _ 0 (.acq 0 op) _ _ _ rfl
    (.acqRd (fun u hu => rfl) (by intro v ord e; simp [op, viaOp] at e)))
  have x5 := Exec.tau x4 (.act _ 0 (.rd 0 op _) _ _ _ rfl (.rd 0 rfl))
  have one : ∀ i : Fin 1, i = 0 := fun i => Subsingleton.elim _ _
  have x6 := Exec.tau x5 (.act _ 0 (.rd 0 op _) _ _ _ rfl
    (.rdWr (x := oneWord 4) (v := oneWord 7) (r := .val (oneWord 4)) (by intro i; rw [one i]; rfl) rfl))
  have x7 := Exec.tau x6 (.act _ 0 (.wr 0 op _ _ _) _ _ _ rfl (.wr 0 rfl))
  have x8 := Exec.tau x7 (.act _ 0 (.wr 0 op _ _ _) _ _ _ rfl
    (.wrRel (by intro i; rw [one i]; rfl)))
  have x9 := Exec.tau x8 (.act _ 0 (.rel _) _ _ _ rfl .rel)
  have x10 := Exec.ev x9 (.ret _ 0 (.val (oneWord 4)) rfl)
  obtain ⟨m', ⟨s, hs, _⟩, _⟩ := Cs.cs_linearizable _ _ _ _ x10
  obtain ⟨ho, w, hr, h1, _⟩ := passes (c := (ofCode (Int.codeOf (2 ^ 4) true .fallback)).many Obj)
    (calls := CsCalls oneWord) hs (by
    intro t i hm
    simp at hm
    obtain ⟨-, rfl⟩ := hm
    exact int_passes (.fetchBin .add 3 .seqCst) rfl rfl ⟨rfl, ⟨_, .op _, rfl⟩, rfl⟩)
  exact ⟨_, _, ho, w, x10, hr, h1, rfl⟩

/-- Two bytes, low first. -/
def twoBytes : BitVec (2 ^ 4) ≃ Irq.Val 2 (BitVec 8) where
  toFun x := ![x.setWidth 8, (x >>> 8).setWidth 8]
  invFun v := (v 1).setWidth 16 <<< 8 ||| (v 0).setWidth 16
  left_inv x := by
    show (((x >>> 8).setWidth 8).setWidth 16 <<< 8 ||| (x.setWidth 8).setWidth 16 : BitVec 16) = x
    apply BitVec.eq_of_getLsbD_eq
    intro i hi
    have hi : i < 16 := hi
    by_cases h : i < 8
    · simp [h, hi]
    · have h2 : i - 8 < 8 := by omega
      have h3 : 8 + (i - 8) = i := by omega
      simp [h, hi, h2, h3]
  right_inv v := by
    funext i
    match i with
    | 0 =>
      show (((v 1).setWidth 16 <<< 8 ||| (v 0).setWidth 16 : BitVec 16)).setWidth 8 = v 0
      apply BitVec.eq_of_getLsbD_eq
      intro i hi
      simp [hi]
    | 1 =>
      show (((v 1).setWidth 16 <<< 8 ||| (v 0).setWidth 16 : BitVec 16) >>> 8).setWidth 8 = v 1
      apply BitVec.eq_of_getLsbD_eq
      intro i hi
      have h1 : 8 + i < 16 := by omega
      have h2 : i < 16 := by omega
      simp [hi, h1, h2]

/-- The main program's 16-bit `swap` is interrupted between reading and writing `SREG`; the handler stores. -/
def irqRun : List (Irq.Cmd 8 2 (BitVec 8)) :=
  [.call 0 (viaOp twoBytes (.swap 0x1234 .seqCst)), .go 0, .go 0, .irq 1 0x00,
   .call 0 (viaOp twoBytes (.store 0x5678 .relaxed)), .go 0, .go 0, .go 0, .go 0, .go 1, .go 0, .go 0, .go 0, .go 0,
   .ret, .iret, .go 0, .go 0, .go 0, .go 1, .go 0, .go 0, .go 1, .go 0, .go 0, .irq 2 0x00, .iret,
   .go 0, .ret]

/-- The calls in a history. -/
def irqInvs {n w : Nat} {C : Type} : List (Object.Ev (Obj × Irq.Req (Irq.Val n C) × BitVec w) (Res (Irq.Val n C) × BitVec w)) →
    List (Obj × Op (Irq.Val n C))
  | [] => []
  | .inv _ (o, q, _) :: h => (o, q.op) :: irqInvs h
  | _ :: h => irqInvs h

theorem mem_irqInvs {n w : Nat} {C : Type} {t : Tid} {i : Obj × Irq.Req (Irq.Val n C) × BitVec w} :
    ∀ {h : List (Object.Ev (Obj × Irq.Req (Irq.Val n C) × BitVec w) (Res (Irq.Val n C) × BitVec w))},
      Object.Ev.inv t i ∈ h → (i.1, i.2.1.op) ∈ irqInvs h
  | [], hm => by cases hm
  | .inv u (o, op, sr) :: h, hm => by
    simp only [List.mem_cons, Object.Ev.inv.injEq] at hm
    rcases hm with ⟨_, rfl⟩ | hm
    · simp [irqInvs]
    · simp [irqInvs, mem_irqInvs hm]
  | .ret u r :: h, hm => by
    simp only [List.mem_cons, reduceCtorEq, false_or] at hm
    simp [irqInvs, mem_irqInvs hm]

/-- That is a history of the public `swap` and `store`. -/
example : ∃ hi s ho w, Exec (Irq.Step Irq.avr16) (Irq.init 0 (fun _ => twoBytes 0x102) 0x82 false) hi s ∧
    Run ((ofCode (Int.codeOf (2 ^ 4) true .fallback)).many Obj) (IrqCalls twoBytes) hi ho w ∧ ho.length = 4 ∧
    twoBytes.symm (s.mem 0) = 0x1234 := by
  cases hs : Irq.sched Irq.avr16 irqRun (Irq.init 0 (fun _ => twoBytes 0x102) 0x82 false) with
  | none =>
    exact absurd (congrArg Option.isNone hs) (by decide +kernel)
  | some x =>
    have e : (Irq.sched Irq.avr16 irqRun (Irq.init 0 (fun _ => twoBytes 0x102) 0x82 false)).map (fun x => irqInvs x.1) =
      some [(0, viaOp twoBytes (.swap 0x1234 .seqCst)), (0, viaOp twoBytes (.store 0x5678 .relaxed))] := rfl
    have hl : (Irq.sched Irq.avr16 irqRun (Irq.init 0 (fun _ => twoBytes 0x102) 0x82 false)).map
      (fun x => (x.1.length, twoBytes.symm (x.2.mem 0))) = some (4, 0x1234) := rfl
    rw [hs] at e hl
    simp only [Option.map_some, Option.some.injEq, Prod.mk.injEq] at e hl
    have hx := Irq.sched_sound _ _ hs
    obtain ⟨m', ⟨s, hs', _⟩, _⟩ := Irq.irq_linearizable Irq.avr16 .avr 0 _ _ _ _ _ hx
    obtain ⟨ho, w, hr, h1, _⟩ := passes (c := (ofCode (Int.codeOf (2 ^ 4) true .fallback)).many Obj)
      (calls := IrqCalls twoBytes) hs' (by
      intro t i hm
      have := mem_irqInvs hm
      rw [e] at this
      obtain ⟨o, ⟨op, nat⟩, sr⟩ := i
      simp only [List.mem_cons, List.not_mem_nil, or_false, Prod.mk.injEq] at this
      rcases this with ⟨rfl, rfl⟩ | ⟨rfl, rfl⟩
      · exact int_passes (.swap 0x1234 .seqCst) rfl rfl ⟨rfl, ⟨_, .op _, rfl⟩, rfl⟩
      · exact int_passes (.store 0x5678 .relaxed) rfl rfl ⟨rfl, ⟨_, .op _, rfl⟩, rfl⟩)
    exact ⟨_, _, ho, w, hx, hr, h1.trans hl.1, hl.2⟩

end Verif.Compose
