import Verif.Props.Update
/-!
# `fetch_update` with arbitrary closures on the other back ends (C69)
-/
set_option autoImplicit false
set_option linter.unusedSectionVars false
namespace Verif.Update
open Verif.Object

variable {K : Type} [DecidableEq K]

/-! ## Over the public operations of an integer atomic, whatever implements them -/

/-- `self.load`, `self.compare_exchange_weak` of an integer atomic (`src/lib.rs` L3659-3676 calls L3087 and L3249). -/
def apiMethods (K : Type) (w : Nat) : Methods K (BitVec w) (K × Int.IOp w) (Int.IRes w) where
  load k o i := i = (k, .load o)
  compareExchangeWeak k v n s f i := i = (k, .compareExchangeWeak v n s f)
  ans := Compose.intAns

theorem api_ok {w : Nat} {signed : Bool} : (apiMethods K w).Ok ((Int.spec signed).many (K := K)) where
  load_ok := by
    rintro k o _ m m' p rfl ⟨x, ⟨rfl, rfl⟩, rfl⟩ ⟨h1, h2⟩
    simp [h1, h2, Compose.intAns, Function.update_eq_self, apiMethods]
  load_bad := by
    rintro k o _ m m' p rfl ⟨x, ⟨rfl, rfl⟩, rfl⟩ h
    simp [h, Compose.intAns, Function.update_eq_self, apiMethods]
  weak := by
    rintro k v w s f _ m m' p rfl ⟨x, hs, rfl⟩ ⟨h1, h2⟩
    simp only [Int.spec, Int.Sem, h1, h2, or_self, if_false] at hs
    rcases hs with ⟨rfl, rfl, rfl⟩ | ⟨rfl, rfl⟩
    · exact .inl ⟨rfl, rfl, rfl⟩
    · exact .inr ⟨Function.update_eq_self _ _, rfl⟩

/-- **C69j.** Over any linearizable integer atomic. -/
theorem api_update {w : Nat} {signed : Bool} {m m' : K → BitVec w} {hi} (hl : LinearizableTo ((Int.spec signed).many (K := K)) m hi m')
    {ho v} (x : Run (apiMethods K w) hi ho v) : ExplainedTo ((Int.spec signed).many (K := K)) m ho m' :=
  update_explained api_ok hl x

/-- **C69k.** 128-bit atomics on AArch64, down to the instructions. -/
theorem arm_update {E : Arm.Env} (hE : E.Ok) (order) (signed : Bool) {m m' : K → BitVec 128} {hi}
    (hx : (Wide.armFns E order).History signed m hi m') {ho v} (x : Run (apiMethods K 128) hi ho v) :
    ExplainedTo ((Int.spec signed).many (K := K)) m ho m' :=
  api_update (Wide.arm_api_linearizable hE order signed m m' hi hx) x

/-- PowerPC64. -/
theorem ppc_update {E : Ppc.Env} (hE : E.Ok) (hq : E.Quad) (signed : Bool) {m m' : K → BitVec 128} {hi}
    (hx : (Wide.ppcFns E).History signed m hi m') {ho v} (x : Run (apiMethods K 128) hi ho v) :
    ExplainedTo ((Int.spec signed).many (K := K)) m ho m' :=
  api_update (Wide.ppc_api_linearizable hE hq signed m m' hi hx) x

/-- s390x. -/
theorem s390x_update {E : S390x.Env} (hE : E.Ok) (signed : Bool) {m m' : K → BitVec 128} {hi}
    (hx : (Wide.s390xFns E).History signed m hi m') {ho v} (x : Run (apiMethods K 128) hi ho v) :
    ExplainedTo ((Int.spec signed).many (K := K)) m ho m' :=
  api_update (Wide.s390x_api_linearizable hE signed m m' hi hx) x

/-- riscv64. -/
theorem rv64_update {E : Rv64.Env} (hE : E.Ok) (hq : E.Zacas) (signed : Bool) {m m' : K → BitVec 128} {hi}
    (hx : (Wide.rv64Fns E).History signed m hi m') {ho v} (x : Run (apiMethods K 128) hi ho v) :
    ExplainedTo ((Int.spec signed).many (K := K)) m ho m' :=
  api_update (Wide.rv64_api_linearizable hE hq signed m m' hi hx) x

/-- riscv32, 64 bits. -/
theorem rv32_update {E : Rv32.Env} (hE : E.Ok) (hq : E.Zacas) (signed : Bool) {m m' : K → BitVec 64} {hi}
    (hx : (Wide.rv32Fns E).History signed m hi m') {ho v} (x : Run (apiMethods K 64) hi ho v) :
    ExplainedTo ((Int.spec signed).many (K := K)) m ho m' :=
  api_update (Wide.rv32_api_linearizable hE hq signed m m' hi hx) x

/-- Arm Linux before v6, 64 bits. -/
theorem kuser_update {E : Kuser.Env} (hE : E.Ok) (hk : E.hasKuser = true) (signed : Bool) {m m' : K → BitVec 64} {hi}
    (hx : (Wide.kuserFns E).History signed m hi m') {ho v} (x : Run (apiMethods K 64) hi ho v) :
    ExplainedTo ((Int.spec signed).many (K := K)) m ho m' :=
  api_update (Wide.kuser_api_linearizable hE hk signed m m' hi hx) x

/-- x86_64, on a memory with store buffers, if all stores of the program are `SeqCst`. -/
theorem x86_update (E : X86.Fn.Env) (ok : E.Ok) (hc : E.Cx16) (signed : Bool) {m : K → BitVec 128} {hi}
    (hx : Wide.x86History E signed m hi) (hs : ∀ t k v o, Object.Ev.inv t (k, Int.IOp.store v o) ∈ hi → o = .seqCst)
    {ho v} (x : Run (apiMethods K 128) hi ho v) : ∃ m', ExplainedTo ((Int.spec signed).many (K := K)) m ho m' := by
  obtain ⟨m', hl⟩ := Wide.x86_api_linearizable E ok hc signed m hi hx hs
  exact ⟨m', api_update hl x⟩

/-! ## Critical sections and masked interrupts -/

section
variable {n : Nat} {C : Type} [DecidableEq C]
open Verif.Irq

/-- A cell's operations with something of the environment's along (nesting depth, status register). -/
theorem along_ok {J D : Type} {T : Spec (Obj → Val n C) (Obj × J) (Res (Val n C) × D)} (req : Op (Val n C) → J → Prop)
    (h : ∀ k o j m m' p, req o j → T.sem (k, j) m m' p → m' = Function.update m k (o.onCell (m k)).1 ∧ p.1 = (o.onCell (m k)).2) :
    (⟨fun k o i => i.1 = k ∧ req (.load o) i.2, fun k v w s f i => i.1 = k ∧ req (.cas v w s f) i.2, fun p => p.1⟩ :
      Methods Obj (Val n C) (Obj × J) (Res (Val n C) × D)).Ok T where
  load_ok := by
    rintro k o ⟨k', j⟩ m m' p ⟨rfl, hr⟩ hs ⟨h1, h2⟩
    obtain ⟨rfl, e⟩ := h k' _ j m m' p hr hs
    simp only [e]
    simp [Op.onCell, Op.ordOk, h1, h2, Function.update_eq_self]
  load_bad := by
    rintro k o ⟨k', j⟩ m m' p ⟨rfl, hr⟩ hs hb
    obtain ⟨rfl, e⟩ := h k' _ j m m' p hr hs
    simp only [e]
    rcases hb with rfl | rfl <;> simp [Op.onCell, Op.ordOk, Function.update_eq_self]
  weak := by
    rintro k v w s f ⟨k', j⟩ m m' p ⟨rfl, hr⟩ hs ⟨h1, h2⟩
    obtain ⟨rfl, e⟩ := h k' _ j m m' p hr hs
    simp only [e]
    by_cases e : m k' = v
    · simp [Op.onCell, Op.ordOk, h1, h2, e]
    · simp [Op.onCell, Op.ordOk, h1, h2, e, Function.update_eq_self]

/-- `load` and `compare_exchange_weak` (the strong one) with feature `critical-section`: `src/imp/interrupt/mod.rs` L139-L169, L197-L211. -/
def csMethods (n : Nat) (C : Type) : Methods Obj (Val n C) (Obj × Op (Val n C) × Nat) (Res (Val n C) × Nat) where
  load k o i := i.1 = k ∧ i.2.1 = .load o
  compareExchangeWeak k v w s f i := i.1 = k ∧ i.2.1 = .cas v w s f
  ans p := p.1

/-- **C69l.** `fetch_update` with feature `critical-section`: any number of threads, cores and handlers, at any depth of critical sections. -/
theorem cs_update {m : Mem n C} {hi s} (hx : Exec (Cs.Step (Cs.Cfg.feature (n := n) (C := C))) (Cs.init m) hi s) {ho w}
    (x : Run (csMethods n C) hi ho w) :
    ∃ m', ExplainedTo (Cs.spec (Cs.Cfg.feature (n := n) (C := C))) m ho m' ∧ ((∀ t, s.th t = none) → s.mem = m') := by
  obtain ⟨m', hl, hm⟩ := Cs.cs_linearizable _ m hi s hx
  refine ⟨m', update_explained (M := csMethods n C) (along_ok (fun o (j : Op (Val n C) × Nat) => j.1 = o) ?_) hl x, hm⟩
  rintro k o ⟨o', d⟩ m m' p rfl hs
  exact ((Cs.feature_is_cell k o' d m m' p).1 hs).2

/-- The same where interrupts are masked instead. -/
def irqMethods (n : Nat) (C : Type) (w : Nat) : Methods Obj (Val n C) (Obj × Req (Val n C) × BitVec w) (Res (Val n C) × BitVec w) where
  load k o i := i.1 = k ∧ i.2.1.op = .load o
  compareExchangeWeak k v w s f i := i.1 = k ∧ i.2.1.op = .cas v w s f
  ans p := p.1

/-- **C69m.** On one core with interrupts: closures of the main program may be interrupted by handlers that call `fetch_update` on the
same atomic, whose closures may be interrupted in turn. -/
theorem irq_update (Kc : Cfg n C) (hK : Supported Kc.arch) (hc : Kc.checked = true) (t : Tid) {m : Mem n C} (sr : BitVec Kc.arch.w)
    (win : Bool) {hi s} (hx : Exec (Irq.Step Kc) (Irq.init t m sr win) hi s) {ho w} (x : Run (irqMethods n C Kc.arch.w) hi ho w) :
    ∃ m', ExplainedTo (Irq.spec Kc) m ho m' ∧ (s.top.pc = none → s.mem = m') := by
  obtain ⟨m', hl, hm⟩ := Irq.irq_linearizable Kc hK t m sr win hi s hx
  refine ⟨m', update_explained (M := irqMethods n C Kc.arch.w)
    (along_ok (fun o (j : Req (Val n C) × BitVec Kc.arch.w) => j.1.op = o) ?_) hl x, hm⟩
  rintro k o ⟨⟨o', nat⟩, d⟩ m m' p rfl hs
  exact ((Irq.spec_is_cell Kc k o' nat d m m' p (.inl hc)).1 hs).2

/-- **C69n.** A closure does not run inside the critical section of its `fetch_update`: its context is in no operation and as deep in
critical sections as the user's code made it. -/
theorem cs_closure_outside {m : Mem n C} {hi s} (Kc : Cs.Cfg n C) (hx : Exec (Cs.Step Kc) (Cs.init m) hi s) {ho w}
    {M : Methods Obj (Val n C) (Obj × Op (Val n C) × Nat) (Res (Val n C) × Nat)} (x : Run M hi ho w)
    {t : Tid} {k : Obj} {so f : MemOrd} {v : Val n C} {st : List (Fr Obj (Val n C) (Obj × Op (Val n C) × Nat) (Res (Val n C) × Nat))}
    (ht : w t = .upd k so f (.body v) :: st) : s.th t = none := by
  have hcl : opened hi t = false := (run_waiting x t).1.trans (by rw [ht]; rfl)
  clear ht x
  generalize hi0 : Cs.init m = i0 at hx
  induction hx with
  | refl => subst hi0; rfl
  | tau x st ih =>
    have h0 := ih hcl
    cases st with
    | act u pc m' held' pc' hp ha =>
      have e : t ≠ u := fun e => by rw [← e, h0] at hp; cases hp
      simp only [Function.update_of_ne e]
      exact h0
    | _ => exact h0
  | @ev h s1 e s2 x st ih =>
    rw [opened_snoc] at hcl
    cases st with
    | inv u o op hp =>
      by_cases e : u = t
      · simp [e] at hcl
      · simp only [if_neg e] at hcl
        simp only [Function.update_of_ne (Ne.symm e)]
        exact ih hcl
    | ret u r hp =>
      by_cases e : u = t
      · subst e; simp
      · simp only [if_neg e] at hcl
        simp only [Function.update_of_ne (Ne.symm e)]
        exact ih hcl
end

/-! ## Example with critical sections -/

namespace CsDemo
open Verif.Irq Verif.Cs

abbrev F : Cs.Cfg 1 (BitVec 8) := Cs.Cfg.feature
def val (v : BitVec 8) : Val 1 (BitVec 8) := fun _ => v

/-- Object 0 holds `v`, nothing is running. -/
def Quiet (v : BitVec 8) (s : Cs.State 1 (BitVec 8)) : Prop := s.mem 0 = val v ∧ s.held = (fun _ => 0) ∧ s.th = fun _ => none

theorem go {s0 : Cs.State 1 (BitVec 8)} {h} {m m' : Mem 1 (BitVec 8)} {hd hd' : Tid → Nat} {pc pc' : Cs.Pc 1 (BitVec 8)}
    (hx : Exec (Cs.Step F) s0 h ⟨m, hd, Function.update (fun _ => none) 0 (some pc)⟩)
    (ha : Act F 0 ⟨m, hd, Function.update (fun _ => none) 0 (some pc)⟩ pc m' hd' pc') :
    Exec (Cs.Step F) s0 h ⟨m', hd', Function.update (fun _ => none) 0 (some pc')⟩ := by
  have := hx.tau (Cs.Step.act _ 0 pc m' hd' pc' (by simp) ha)
  simpa only [Function.update_idem] using this

theorem load_runs {s0 s : Cs.State 1 (BitVec 8)} {h} (hx : Exec (Cs.Step F) s0 h s) {v : BitVec 8} (hq : Quiet v s) :
    ∃ s', Exec (Cs.Step F) s0 (h ++ [.inv 0 (0, .load .acquire, 0)] ++ [.ret 0 (.val (val v), 0)]) s' ∧ Quiet v s' := by
  obtain ⟨m, hd, th⟩ := s
  obtain ⟨h1, rfl, rfl⟩ := hq
  simp only at h1
  have x := hx.ev (Cs.Step.inv _ 0 0 (.load .acquire) rfl)
  dsimp only at x
  have x := go x (.goAcq (o := 0) (op := .load .acquire) rfl rfl rfl)
  have x := go x (.acqRd (fun _ _ => rfl) (by simp))
  have x := go x (.rd 0 rfl)
  have x := go x (.rdRel (x := val v) (r := .val (val v))
    (fun i => by obtain rfl : i = 0 := Subsingleton.elim _ _; simp [h1]) rfl)
  have x := go x .rel
  have x := x.ev (Cs.Step.ret _ 0 _ (by simp; rfl))
  refine ⟨_, by simpa using x, h1, ?_, ?_⟩ <;> funext u <;> by_cases e : u = 0 <;> simp [e]

theorem cas_runs {s0 s : Cs.State 1 (BitVec 8)} {h} (hx : Exec (Cs.Step F) s0 h s) {v : BitVec 8} (hq : Quiet v s) (n : BitVec 8) :
    ∃ s', Exec (Cs.Step F) s0 (h ++ [.inv 0 (0, .cas (val v) (val n) .acqRel .acquire, 0)] ++ [.ret 0 (.ok (val v), 0)]) s' ∧
      Quiet n s' := by
  obtain ⟨m, hd, th⟩ := s
  obtain ⟨h1, rfl, rfl⟩ := hq
  simp only at h1
  have x := hx.ev (Cs.Step.inv _ 0 0 (.cas (val v) (val n) .acqRel .acquire) rfl)
  dsimp only at x
  have x := go x (.goAcq (o := 0) (op := .cas (val v) (val n) .acqRel .acquire) rfl rfl rfl)
  have x := go x (.acqRd (fun _ _ => rfl) (by simp))
  have x := go x (.rd 0 rfl)
  have x := go x (.rdWr (x := val v) (v := val n) (r := .ok (val v))
    (fun i => by obtain rfl : i = 0 := Subsingleton.elim _ _; simp [h1]) (by simp [after]))
  have x := go x (.wr 0 rfl)
  have x := go x (.wrRel (fun i => by obtain rfl : i = 0 := Subsingleton.elim _ _; simp))
  have x := go x .rel
  have x := x.ev (Cs.Step.ret _ 0 _ (by simp; rfl))
  refine ⟨_, by simpa using x, ?_, ?_, ?_⟩
  · funext i; obtain rfl : i = 0 := Subsingleton.elim _ _; simp
  all_goals funext u; by_cases e : u = 0 <;> simp [e]

/-- A closure that itself stores by `fetch_update` and then declines: the inner update counts, the outer call returns what it was shown. -/
theorem nested : ∃ hi s w, Exec (Cs.Step F) (Cs.init fun _ => val 5) hi s ∧ Run (csMethods 1 (BitVec 8)) hi
    [.update 0 0 .acqRel .acquire, .ask 0 (val 5),
       .update 0 0 .acqRel .acquire, .ask 0 (val 5), .reply 0 (some (val 6)), .finish 0 (.ok (val 5)),
     .reply 0 none, .finish 0 (.err (val 5))] w ∧ s.mem 0 = val 6 := by
  obtain ⟨s, x, hq⟩ := load_runs (h := []) (Exec.refl (step := Cs.Step F) (Cs.init fun _ => val 5)) (v := 5) ⟨rfl, rfl, rfl⟩
  obtain ⟨s, x, hq⟩ := load_runs x hq
  obtain ⟨s, x, hq⟩ := cas_runs x hq 6
  have r := Run.nil (M := csMethods 1 (BitVec 8))
  have r := r.update 0 0 .acqRel .acquire trivial
  have r := r.load 0 0 .acqRel .acquire [] (by simp) (0, .load .acquire, 0) ⟨rfl, rfl⟩
  have r := r.loaded 0 0 .acqRel .acquire (.val (val 5), 0) [] (by simp)
  have r := r.ask 0 0 .acqRel .acquire (val 5) [] (by simp [afterLoad, csMethods])
  have r := r.update 0 0 .acqRel .acquire (by simp [CanCall])
  have r := r.load 0 0 .acqRel .acquire [.upd 0 .acqRel .acquire (.body (val 5))] (by simp) (0, .load .acquire, 0) ⟨rfl, rfl⟩
  have r := r.loaded 0 0 .acqRel .acquire (.val (val 5), 0) [.upd 0 .acqRel .acquire (.body (val 5))] (by simp)
  have r := r.ask 0 0 .acqRel .acquire (val 5) [.upd 0 .acqRel .acquire (.body (val 5))] (by simp [afterLoad, csMethods])
  have r := r.reply 0 0 .acqRel .acquire (val 5) (some (val 6)) [.upd 0 .acqRel .acquire (.body (val 5))] (by simp)
  have r := r.cas 0 0 .acqRel .acquire (val 5) (val 6) [.upd 0 .acqRel .acquire (.body (val 5))] (by simp [afterF])
    (0, .cas (val 5) (val 6) .acqRel .acquire, 0) ⟨rfl, rfl⟩
  have r := r.cased 0 0 .acqRel .acquire (val 5) (val 6) (.ok (val 5), 0) [.upd 0 .acqRel .acquire (.body (val 5))] (by simp)
  have r := r.finish 0 0 .acqRel .acquire (.ok (val 5)) [.upd 0 .acqRel .acquire (.body (val 5))] (by simp [afterCas, csMethods])
  have r := r.reply 0 0 .acqRel .acquire (val 5) none [] (by simp)
  have r := r.finish 0 0 .acqRel .acquire (.err (val 5)) [] (by simp [afterF])
  exact ⟨_, s, _, x, r, hq.1⟩

end CsDemo
end Verif.Update
