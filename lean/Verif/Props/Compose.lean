import Verif.Compose.Cells
import Verif.Compose.Outline
import Verif.Props.WideApi
import Verif.Props.Fallback
import Verif.Props.Float
import Verif.Props.Ptr
import Verif.Props.Bool
import Verif.Props.Irq
import Verif.Props.Cs
/-!
# Atomics over atomics (C60)

Operations made of other atomic operations (loops, floats, pointers, booleans, bit operations) over an atomic that is
itself code: the lock-based fallback, critical sections, machine code.
-/
set_option autoImplicit false
set_option linter.unusedSectionVars false
namespace Verif.Compose
open Verif.Object Verif.Lf

variable {V W O R L K : Type} [DecidableEq V] [DecidableEq W] [DecidableEq K]

/-! ## The programs -/

def intSim (e : Nat) (signed : Bool) (k : Int.Backend) : CodeSim (Int.codeOf (2 ^ e) signed k) (Int.specOf (2 ^ e) signed k) :=
  Prog.sim (S := Int.specOf (2 ^ e) signed k) fun op =>
    Int.prog_impl rfl signed k op.1 _ (Option.some_get op.2).symm

def floatSim (e : Nat) (signed : Bool) (A : Float.Arith (2 ^ e)) (f : Float.FBackend) :
    CodeSim (Float.codeOf signed A f) (Float.specOf signed A f) :=
  Prog.sim (S := Float.specOf signed A f) fun op => Float.prog_impl rfl signed op.1 _ (Option.some_get op.2).symm

def ptrSim (e size : Nat) (k : Ptr.Backend) : CodeSim (Ptr.codeOf (2 ^ e) size k) (Ptr.specOf (2 ^ e) size k) :=
  Prog.sim (S := Ptr.specOf (2 ^ e) size k) fun op => Ptr.prog_impl rfl size k op.1 _ (Option.some_get op.2).symm

/-! ## Over the lock-based fallback -/

/-- Any operations made of accesses that are right on an indivisible cell are linearizable over the lock-based
fallback: threads run the operations' code, each access of which runs the fallback's code. -/
theorem over_lock {cfg : Fallback.Cfg V} (ok : cfg.Ok) {c : Code V O R L} {S : Spec W O R} (X : CodeSim c S)
    {cells : Obj → V} {v0 : Nat → Nat} {ext : Nat → BitVec cfg.W} (hinv : ∀ o, X.inv (cells o)) {hi s}
    (hx : Exec cfg.StepB (cfg.init cells v0 ext) hi s) {ho w}
    (hw : Run ((ofCode c).many Obj) CellCalls (hi.map toObj) ho w) :
    Linearizable (S.many (K := Obj)) (fun o => X.abs (cells o)) ho := by
  obtain ⟨m', hl⟩ := atomic_object (Fallback.fallback_linearizable ok.toSound (fun o => ok.full o _) hx)
  exact ⟨_, (ofSim X).over cellBridge hinv hl hw⟩

/-- **C60i.** All integer operations (`fetch_update`, bit operations, ...) over the lock-based fallback. -/
theorem int_over_lock {e : Nat} {cfg : Fallback.Cfg (BitVec (2 ^ e))} (ok : cfg.Ok) (signed : Bool)
    {cells : Obj → BitVec (2 ^ e)} {v0 : Nat → Nat} {ext : Nat → BitVec cfg.W} {hi s}
    (hx : Exec cfg.StepB (cfg.init cells v0 ext) hi s) {ho w}
    (hw : Run ((ofCode (Int.codeOf (2 ^ e) signed .fallback)).many Obj) CellCalls (hi.map toObj) ho w) :
    Linearizable ((Int.specOf (2 ^ e) signed .fallback).many (K := Obj)) cells ho :=
  over_lock ok (intSim e signed .fallback) (fun _ => trivial) hx hw

/-- **C60j.** Float operations over integers of the lock-based fallback. -/
theorem float_over_lock {e : Nat} {cfg : Fallback.Cfg (BitVec (2 ^ e))} (ok : cfg.Ok) (signed : Bool)
    (A : Float.Arith (2 ^ e)) {cells : Obj → BitVec (2 ^ e)} {v0 : Nat → Nat} {ext : Nat → BitVec cfg.W} {hi s}
    (hx : Exec cfg.StepB (cfg.init cells v0 ext) hi s) {ho w}
    (hw : Run ((ofCode (Float.codeOf signed A (.int .fallback))).many Obj) CellCalls (hi.map toObj) ho w) :
    Linearizable ((Float.specOf signed A (.int .fallback)).many (K := Obj)) cells ho :=
  over_lock ok (floatSim e signed A (.int .fallback)) (fun _ => trivial) hx hw

/-! ## Over critical sections -/

/-- How an access calls an operation that disables interrupts: on the same object, whose value is the encoding of the
caller's, with whatever is in the status register. -/
def IrqCalls {n : Nat} {C : Type} {w : Nat} (e : V ≃ Irq.Val n C) (a : Obj × Acc V)
    (i : Obj × Irq.Req (Irq.Val n C) × BitVec w) (d : Res (Irq.Val n C) × BitVec w → Res V) : Prop :=
  i.1 = a.1 ∧ (∃ o, AccOp a.2 o ∧ i.2.1.op = viaOp e o) ∧ d = fun p => viaRes e p.1

theorem update_symm {n : Nat} {C : Type} (e : V ≃ Irq.Val n C) (x : Obj → Irq.Val n C) (k : Obj) (y : Irq.Val n C) :
    (fun o => e.symm (Function.update x k y o)) = Function.update (fun o => e.symm (x o)) k (e.symm y) := by
  funext u
  by_cases hu : u = k
  · subst hu; simp
  · simp [Function.update_of_ne hu]

def irqBridge {n : Nat} {C : Type} [DecidableEq C] (e : V ≃ Irq.Val n C) (Kc : Irq.Cfg n C) (hc : Kc.checked = true) :
    Bridge (Irq.spec Kc) ((cell V).many (K := Obj)) (IrqCalls e) where
  abs m := fun o => e.symm (m o)
  sem := by
    rintro ⟨k, a⟩ ⟨k', ⟨op, nat⟩, sr⟩ d x x' p ⟨h1, ⟨o, ho, h2⟩, rfl⟩ hs
    simp only at h1 h2 ho
    subst h1 h2
    obtain ⟨_, rfl, hr⟩ := (Irq.spec_is_cell Kc k' _ nat sr x x' p (Or.inl hc)).1 hs
    obtain ⟨e1, e2⟩ := via_onCell e o (x k')
    refine ⟨(o.onCell (e.symm (x k'))).1, ?_, ?_⟩
    · show a.sem _ _ (viaRes e p.1)
      rw [hr, e2]
      exact ho.sem _
    · rw [update_symm, e1]

/-- Any operations made of accesses, over operations that disable interrupts. -/
theorem over_irq {n : Nat} {C : Type} [DecidableEq C] (e : V ≃ Irq.Val n C) (Kc : Irq.Cfg n C)
    (hK : Irq.Supported Kc.arch) (hc : Kc.checked = true) {c : Code V O R L} {S : Spec W O R} (X : CodeSim c S)
    (t : Tid) (m : Irq.Mem n C) (hinv : ∀ o, X.inv (e.symm (m o))) (sr : BitVec Kc.arch.w) (win : Bool) {hi s}
    (hx : Exec (Irq.Step Kc) (Irq.init t m sr win) hi s) {ho w} (hw : Run ((ofCode c).many Obj) (IrqCalls e) hi ho w) :
    ∃ m', LinearizableTo (S.many (K := Obj)) (fun o => X.abs (e.symm (m o))) ho (fun o => X.abs (e.symm (m' o))) ∧
      (s.top.pc = none → s.mem = m') := by
  obtain ⟨m', hl, hm⟩ := Irq.irq_linearizable Kc hK t m sr win hi s hx
  exact ⟨m', (ofSim X).over (irqBridge e Kc hc) hinv hl hw, hm⟩

/-- **C60k.** All integer operations on one core with interrupts: main program and nested handlers, values of one or
more words. -/
theorem int_over_irq {b n : Nat} {C : Type} [DecidableEq C] (e : BitVec (2 ^ b) ≃ Irq.Val n C) (Kc : Irq.Cfg n C)
    (hK : Irq.Supported Kc.arch) (hc : Kc.checked = true) (signed : Bool)
    (t : Tid) (m : Irq.Mem n C) (sr : BitVec Kc.arch.w) (win : Bool) {hi s}
    (hx : Exec (Irq.Step Kc) (Irq.init t m sr win) hi s) {ho w}
    (hw : Run ((ofCode (Int.codeOf (2 ^ b) signed .fallback)).many Obj) (IrqCalls e) hi ho w) :
    ∃ m', LinearizableTo ((Int.specOf (2 ^ b) signed .fallback).many (K := Obj)) (fun o => e.symm (m o)) ho
        (fun o => e.symm (m' o)) ∧ (s.top.pc = none → s.mem = m') :=
  over_irq e Kc hK hc (intSim b signed .fallback) t m (fun _ => trivial) sr win hx hw

/-- The same for a critical section, with the depth of nesting instead of the status register. -/
def CsCalls {n : Nat} {C : Type} (e : V ≃ Irq.Val n C) (a : Obj × Acc V)
    (i : Obj × Op (Irq.Val n C) × Nat) (d : Res (Irq.Val n C) × Nat → Res V) : Prop :=
  i.1 = a.1 ∧ (∃ o, AccOp a.2 o ∧ i.2.1 = viaOp e o) ∧ d = fun p => viaRes e p.1

def csBridge {n : Nat} {C : Type} [DecidableEq C] (e : V ≃ Irq.Val n C) :
    Bridge (Cs.spec (Cs.Cfg.feature (n := n) (C := C))) ((cell V).many (K := Obj)) (CsCalls e) where
  abs m := fun o => e.symm (m o)
  sem := by
    rintro ⟨k, a⟩ ⟨k', op, dp⟩ d x x' p ⟨h1, ⟨o, ho, h2⟩, rfl⟩ hs
    simp only at h1 h2 ho
    subst h1 h2
    obtain ⟨_, rfl, hr⟩ := (Cs.feature_is_cell k' _ dp x x' p).1 hs
    obtain ⟨e1, e2⟩ := via_onCell e o (x k')
    refine ⟨(o.onCell (e.symm (x k'))).1, ?_, ?_⟩
    · show a.sem _ _ (viaRes e p.1)
      rw [hr, e2]
      exact ho.sem _
    · rw [update_symm, e1]

theorem over_cs {n : Nat} {C : Type} [DecidableEq C] (e : V ≃ Irq.Val n C) {c : Code V O R L} {S : Spec W O R}
    (X : CodeSim c S) (m : Irq.Mem n C) (hinv : ∀ o, X.inv (e.symm (m o))) {hi s}
    (hx : Exec (Cs.Step (Cs.Cfg.feature (n := n) (C := C))) (Cs.init m) hi s) {ho w}
    (hw : Run ((ofCode c).many Obj) (CsCalls e) hi ho w) :
    ∃ m', LinearizableTo (S.many (K := Obj)) (fun o => X.abs (e.symm (m o))) ho (fun o => X.abs (e.symm (m' o))) ∧
      ((∀ t, s.th t = none) → s.mem = m') := by
  obtain ⟨m', hl, hm⟩ := Cs.cs_linearizable _ m hi s hx
  exact ⟨m', (ofSim X).over (csBridge e) hinv hl hw, hm⟩

/-- **C60l.** All integer operations with feature `critical-section`, any number of threads, cores and handlers. -/
theorem int_over_cs {b n : Nat} {C : Type} [DecidableEq C] (e : BitVec (2 ^ b) ≃ Irq.Val n C) (signed : Bool)
    (m : Irq.Mem n C) {hi s} (hx : Exec (Cs.Step (Cs.Cfg.feature (n := n) (C := C))) (Cs.init m) hi s) {ho w}
    (hw : Run ((ofCode (Int.codeOf (2 ^ b) signed .fallback)).many Obj) (CsCalls e) hi ho w) :
    ∃ m', LinearizableTo ((Int.specOf (2 ^ b) signed .fallback).many (K := Obj)) (fun o => e.symm (m o)) ho
        (fun o => e.symm (m' o)) ∧ ((∀ t, s.th t = none) → s.mem = m') :=
  over_cs e (intSim b signed .fallback) m (fun _ => trivial) hx hw

/-! ## Over integers, whatever implements them -/

/-- Operations made of accesses over the public operations of an integer atomic. -/
theorem over_int {w : Nat} (signed : Bool) {c : Code (BitVec w) O R L} {S : Spec W O R} (X : CodeSim c S)
    {m m' : K → BitVec w} (hinv : ∀ k, X.inv (m k)) {hi}
    (hl : LinearizableTo ((Int.spec signed).many (K := K)) m hi m') {ho v}
    (hw : Run ((ofCode c).many K) (IntCalls signed) hi ho v) :
    LinearizableTo (S.many (K := K)) (fun k => X.abs (m k)) ho (fun k => X.abs (m' k)) :=
  (ofSim X).over (intBridge w signed) hinv hl hw

/-- **C60m.** `AtomicF128` on AArch64, from the float operations to the instructions: threads run the float operations'
code, which calls the public operations of `AtomicU128`, whose methods call functions, which are the instructions. -/
theorem f128_on_arm {E : Arm.Env} (hE : E.Ok) (order) (A : Float.Arith 128) (f : Float.FBackend)
    (m m' : K → BitVec 128) {hi} (hx : (Wide.armFns E order).History false m hi m') {ho v}
    (hw : Run ((ofCode (Float.codeOf false A f)).many K) (IntCalls false) hi ho v) :
    LinearizableTo ((Float.specOf false A f).many (K := K)) m ho m' :=
  over_int false (floatSim 7 false A f) (fun _ => trivial) (Wide.arm_api_linearizable hE order false m m' hi hx) hw

/-- **C60n.** `AtomicF64` on Arm Linux before v6. -/
theorem f64_on_kuser {E : Kuser.Env} (hE : E.Ok) (hk : E.hasKuser = true) (A : Float.Arith 64) (f : Float.FBackend)
    (m m' : K → BitVec 64) {hi} (hx : (Wide.kuserFns E).History false m hi m') {ho v}
    (hw : Run ((ofCode (Float.codeOf false A f)).many K) (IntCalls false) hi ho v) :
    LinearizableTo ((Float.specOf false A f).many (K := K)) m ho m' :=
  over_int false (floatSim 6 false A f) (fun _ => trivial) (Wide.kuser_api_linearizable hE hk false m m' hi hx) hw

/-! ## Processors without double-width instructions -/

open Verif.Wide in
/-- All public operations over the lock, each function of the back end being a call of the lock. -/
theorem api_over_lock {b n : Nat} (hn : n = 2 ^ b) {cfg : Fallback.Cfg (BitVec n)} (ok : cfg.Ok) (signed : Bool)
    {sel : Fn n → WOp n → MemOrd → MemOrd → Prop} (hs : SelOk sel)
    {cells : Obj → BitVec n} {v0 : Nat → Nat} {ext : Nat → BitVec cfg.W} {hi s}
    (hx : Exec cfg.StepB (cfg.init cells v0 ext) hi s) {ho w}
    (hw : Run ((api signed).many Obj) (LockCalls sel) (hi.map toObj) ho w) :
    Linearizable ((Int.spec signed).many (K := Obj)) cells ho := by
  obtain ⟨m', hl⟩ := atomic_object (Fallback.fallback_linearizable ok.toSound (fun o => ok.full o _) hx)
  have := (apiSim hn signed).over (lockBridge hs) (fun _ => trivial) hl hw
  exact ⟨_, this⟩

/-- Which functions of each back end call the lock, and how (`select` of each). -/
def x86Sel (E : X86.Fn.Env) (a : Wide.Fn 128) (op : Wide.WOp) (o f : MemOrd) : Prop :=
  X86.Fn.select E a.op a.ord = .fallback op o f

def ppcSel (E : Ppc.Env) (a : Wide.Fn 128) (op : Wide.WOp) (o f : MemOrd) : Prop :=
  op = a.op ∧ Ppc.select E.cfg E.det a.op a.ord a.fail = .fallback o f

def rv64Sel (E : Rv64.Env) (a : Wide.Fn 128) (op : Wide.WOp) (o f : MemOrd) : Prop :=
  Rv64.select E.cfg E.det a.op a.ord a.fail = .fallback op o f

def rv32Sel (E : Rv32.Env) (a : Wide.Fn 64) (op : Wide.WOp 64) (o f : MemOrd) : Prop :=
  Rv32.select E.cfg E.det a.op a.ord a.fail = .fallback op o f

def kuserSel (E : Kuser.Env) (a : Wide.Fn 64) (op : Wide.WOp 64) (o f : MemOrd) : Prop :=
  Kuser.select E a.op a.ord a.fail = .fallback op o f

open Verif.Wide

theorem x86Sel_ok (E : X86.Fn.Env) : SelOk (x86Sel E) := by
  rintro ⟨op, o, f⟩ op' o' f' h
  simp only [x86Sel, X86.Fn.select] at h
  cases op with
  | load =>
    simp only [X86.Fn.selLoad] at h
    split at h <;> simp at h
    obtain ⟨rfl, rfl, rfl⟩ := h
    exact ⟨Or.inl rfl, by simp [WOp.OrdOk]⟩
  | store v =>
    simp only [X86.Fn.selStore] at h
    split at h <;> first | (split at h <;> simp at h <;> obtain ⟨rfl, rfl, rfl⟩ := h <;> exact ⟨Or.inl rfl, by simp [WOp.OrdOk]⟩) | simp at h
  | cas c x | casWeak c x =>
    simp only [X86.Fn.selCas] at h
    split at h <;> simp at h
    obtain ⟨rfl, rfl, rfl⟩ := h
    exact ⟨Or.inl rfl, by simp [WOp.OrdOk]⟩
  | swap v =>
    simp only [X86.Fn.selRmw] at h
    split at h <;> simp at h
    obtain ⟨rfl, rfl, rfl⟩ := h
    exact ⟨Or.inl rfl, by simp [WOp.OrdOk]⟩
  | rmw3 p v =>
    simp only [X86.Fn.selRmw] at h
    split at h <;> simp at h
    obtain ⟨rfl, rfl, rfl⟩ := h
    exact ⟨Or.inl rfl, by simp [WOp.OrdOk]⟩
  | rmw2 p =>
    simp only [X86.Fn.selRmw] at h
    split at h <;> simp at h
    obtain ⟨rfl, rfl, rfl⟩ := h
    exact ⟨Or.inl rfl, by simp [WOp.OrdOk]⟩

theorem rv64Sel_ok (E : Rv64.Env) : SelOk (rv64Sel E) := by
  rintro ⟨op, o, f⟩ op' o' f' h
  simp only [rv64Sel, Rv64.select] at h
  have hz : ∀ op'' o'', Rv64.zacasFn E.cfg E.det op'' o'' ≠ .fallback op' o' f' := by
    intro op'' o''
    unfold Rv64.zacasFn
    split <;> simp
  cases op <;> cases o <;>
    simp only [Rv64.loadBlock, Rv64.rmwBlock, Rv64.casBlock] at h <;>
    (repeat' split at h) <;> simp_all [WOp.OrdOk] <;> grind

theorem rv32Sel_ok (E : Rv32.Env) : SelOk (rv32Sel E) := by
  rintro ⟨op, o, f⟩ op' o' f' h
  simp only [rv32Sel, Rv32.select] at h
  have hz : ∀ op'' o'', Rv32.zacasFn E.cfg E.det op'' o'' ≠ .fallback op' o' f' := by
    intro op'' o''
    unfold Rv32.zacasFn
    split <;> simp
  cases op <;> cases o <;>
    simp only [Rv32.loadBlock, Rv32.rmwBlock, Rv32.casBlock] at h <;>
    (repeat' split at h) <;> simp_all [WOp.OrdOk] <;> grind

theorem kuserSel_ok (E : Kuser.Env) : SelOk (kuserSel E) := by
  rintro ⟨op, o, f⟩ op' o' f' h
  simp only [kuserSel, Kuser.select] at h
  split at h
  · simp at h
  · cases op <;> simp at h <;> obtain ⟨rfl, rfl, rfl⟩ := h <;> simp [WOp.OrdOk]

theorem ppcSel_ok (E : Ppc.Env) : SelOk (ppcSel E) := by
  rintro ⟨op, o, f⟩ op' o' f' ⟨rfl, h⟩
  refine ⟨Or.inl rfl, ?_⟩
  simp only [Ppc.select] at h
  cases op' with
  | rmw2 p => trivial
  | swap v => trivial
  | rmw3 p v => trivial
  | load =>
    simp only [Ppc.loadBlock, Ppc.loadPwr8] at h
    cases o <;> simp at h <;> (repeat' split at h) <;> simp_all [WOp.OrdOk] <;> grind
  | store v =>
    simp only [Ppc.storeBlock, Ppc.storePwr8] at h
    cases o <;> simp at h <;> (repeat' split at h) <;> simp_all [WOp.OrdOk] <;> grind
  | cas c x =>
    simp only [Ppc.casBlock, Ppc.casPwr8] at h
    (repeat' split at h) <;> simp_all [WOp.OrdOk] <;> grind
  | casWeak c x =>
    simp only [Ppc.casWeakBlock, Ppc.casWeakPwr8, Ppc.casBlock, Ppc.casPwr8] at h
    (repeat' split at h) <;> simp_all [WOp.OrdOk] <;> grind

/-- **C60p.** All public operations of 128-bit atomics on x86_64 without CMPXCHG16B. -/
theorem x86_api_over_lock (E : X86.Fn.Env) {cfg : Fallback.Cfg (BitVec 128)} (ok : cfg.Ok) (signed : Bool)
    {cells : Obj → BitVec 128} {v0 : Nat → Nat} {ext : Nat → BitVec cfg.W} {hi s}
    (hx : Exec cfg.StepB (cfg.init cells v0 ext) hi s) {ho w}
    (hw : Run ((api signed).many Obj) (LockCalls (x86Sel E)) (hi.map toObj) ho w) :
    Linearizable ((Int.spec signed).many (K := Obj)) cells ho :=
  api_over_lock (b := 7) rfl ok signed (x86Sel_ok E) hx hw

/-- **C60q.** PowerPC64 without quadword instructions. -/
theorem ppc_api_over_lock (E : Ppc.Env) {cfg : Fallback.Cfg (BitVec 128)} (ok : cfg.Ok) (signed : Bool)
    {cells : Obj → BitVec 128} {v0 : Nat → Nat} {ext : Nat → BitVec cfg.W} {hi s}
    (hx : Exec cfg.StepB (cfg.init cells v0 ext) hi s) {ho w}
    (hw : Run ((api signed).many Obj) (LockCalls (ppcSel E)) (hi.map toObj) ho w) :
    Linearizable ((Int.spec signed).many (K := Obj)) cells ho :=
  api_over_lock (b := 7) rfl ok signed (ppcSel_ok E) hx hw

/-- **C60r.** riscv64 without Zacas. -/
theorem rv64_api_over_lock (E : Rv64.Env) {cfg : Fallback.Cfg (BitVec 128)} (ok : cfg.Ok) (signed : Bool)
    {cells : Obj → BitVec 128} {v0 : Nat → Nat} {ext : Nat → BitVec cfg.W} {hi s}
    (hx : Exec cfg.StepB (cfg.init cells v0 ext) hi s) {ho w}
    (hw : Run ((api signed).many Obj) (LockCalls (rv64Sel E)) (hi.map toObj) ho w) :
    Linearizable ((Int.spec signed).many (K := Obj)) cells ho :=
  api_over_lock (b := 7) rfl ok signed (rv64Sel_ok E) hx hw

/-- **C60s.** 64-bit atomics on riscv32 without Zacas. -/
theorem rv32_api_over_lock (E : Rv32.Env) {cfg : Fallback.Cfg (BitVec 64)} (ok : cfg.Ok) (signed : Bool)
    {cells : Obj → BitVec 64} {v0 : Nat → Nat} {ext : Nat → BitVec cfg.W} {hi s}
    (hx : Exec cfg.StepB (cfg.init cells v0 ext) hi s) {ho w}
    (hw : Run ((api signed).many Obj) (LockCalls (rv32Sel E)) (hi.map toObj) ho w) :
    Linearizable ((Int.spec signed).many (K := Obj)) cells ho :=
  api_over_lock (b := 6) rfl ok signed (rv32Sel_ok E) hx hw

/-- **C60t.** 64-bit atomics on Arm Linux before v6, where the kernel has no `kuser_cmpxchg64`. -/
theorem kuser_api_over_lock (E : Kuser.Env) {cfg : Fallback.Cfg (BitVec 64)} (ok : cfg.Ok) (signed : Bool)
    {cells : Obj → BitVec 64} {v0 : Nat → Nat} {ext : Nat → BitVec cfg.W} {hi s}
    (hx : Exec cfg.StepB (cfg.init cells v0 ext) hi s) {ho w}
    (hw : Run ((api signed).many Obj) (LockCalls (kuserSel E)) (hi.map toObj) ho w) :
    Linearizable ((Int.spec signed).many (K := Obj)) cells ho :=
  api_over_lock (b := 6) rfl ok signed (kuserSel_ok E) hx hw

/-! Without the instructions every call the methods make (`api_valid`) is one of the lock. -/

theorem x86Sel_total {E : X86.Fn.Env} (hc : ¬ E.Cx16) (a : Fn 128) (h : a.op.OrdOk a.ord a.fail) :
    ∃ op o f, x86Sel E a op o f := by
  obtain ⟨o', f', h1, _⟩ := X86.Fn.x86_fallback E hc a.op a.ord a.fail h
  exact ⟨_, _, _, h1⟩

theorem ppcSel_total {E : Ppc.Env} (hc : ¬ E.Quad) (a : Fn 128) (h : a.op.OrdOk a.ord a.fail) :
    ∃ op o f, ppcSel E a op o f := by
  obtain ⟨o', f', h1, _⟩ := Ppc.ppc_fallback hc ⟨a.op, a.ord, a.fail, h, 0, none, by simp, ⟨fun _ => 0,
    ⟨false, false, false, false⟩, ⟨false, false, false, false⟩, 0, false, false⟩⟩
  exact ⟨_, _, _, rfl, h1⟩

theorem rv64Sel_total {E : Rv64.Env} (hc : ¬ E.Zacas) (a : Fn 128) (h : a.op.OrdOk a.ord a.fail) :
    ∃ op o f, rv64Sel E a op o f := by
  obtain ⟨o', f', h1, _⟩ := Rv64.rv64_fallback hc ⟨a.op, a.ord, a.fail, h, 0, ⟨fun _ => 0, 0, 0⟩⟩
  exact ⟨_, _, _, h1⟩

theorem rv32Sel_total {E : Rv32.Env} (hc : ¬ E.Zacas) (a : Fn 64) (h : a.op.OrdOk a.ord a.fail) :
    ∃ op o f, rv32Sel E a op o f := by
  obtain ⟨o', f', h1, _⟩ := Rv32.rv32_fallback hc ⟨a.op, a.ord, a.fail, h, 0, ⟨fun _ => 0, 0, 0⟩⟩
  exact ⟨_, _, _, h1⟩

theorem kuserSel_total {E : Kuser.Env} (hc : E.hasKuser = false) (a : Fn 64) (h : a.op.OrdOk a.ord a.fail) :
    ∃ op o f, kuserSel E a op o f := by
  obtain ⟨h1, _⟩ := (Kuser.kuser_fallback E ⟨a.op, a.ord, a.fail, h, 0, ⟨0, 0, 0, 0, 0, false⟩⟩).1 hc
  exact ⟨_, _, _, h1⟩

end Verif.Compose
