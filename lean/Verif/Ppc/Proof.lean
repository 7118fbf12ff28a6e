import Verif.Ppc.Sim
import Verif.Arm.Proof
/-!
# Every call of the PowerPC64 back end is correct at its accesses (C39): proof
-/
set_option autoImplicit false
namespace Verif.Ppc
open Verif.Object Verif.Lf Verif.Asm Verif.Wide
open Verif.X86 (fn3 fn2 hi lo)
open Verif.Arm (fn3_sem fn2_sem sem_load sem_store)

variable {E : Env} {c : Call}

theorem entry_of {b : Block} {op : WOp} (hb : c.block E = b) (hop : c.op = op) :
    c.entry E = (b.ins op).foldr (fun p s => s.set p.1 p.2) (c.st.set .dst c.addr) := by
  subst hb hop; rfl

theorem prog_of {b : Block} (hb : c.block E = b) : (blocks E).prog c = b.code := by
  subst hb; rfl

/-- What `Call.result` makes of the value found and the condition register. -/
def resOf : WOp → BitVec 128 → Bool → Res (BitVec 128)
  | .store _, _, _ => .unit
  | .cas _ _, x, t | .casWeak _ _, x, t => if t then .ok x else .err x
  | _, x, _ => .val x

theorem result_of {b : Block} {op : WOp} (hb : c.block E = b) (hop : c.op = op) (s : St) :
    c.result E s = resOf op (join (s.reg b.resRegs.1) (s.reg b.resRegs.2)) (testCr0Eq (s.reg .tmpLo)) := by
  subst hb hop; unfold Call.result resOf; cases c.op <;> rfl

/-- Entry values of registers. -/
macro "entry" hb:term:max hop:term:max : tactic =>
  `(tactic| (rw [entry_of $hb $hop]; simp [Block.ins, reg_set, WOp.arg, WOp.old, argOf]))

/-- Blocks for an operation. -/
inductive Good : WOp → Block → Prop where
  | load : Good .load .load
  | loadAcq (k) : Good .load (.loadAcq k)
  | store (v k) : Good (.store v) (.store k)
  | cas (x y m) : Good (.cas x y) (.cas m)
  | weakCas (x y m) : Good (.casWeak x y) (.cas m)
  | casWeak (x y m) : Good (.casWeak x y) (.casWeak m)
  | swap (v m) : Good (.swap v) (.swap m)
  | rmw3 (p v m) : Good (.rmw3 p v) (.rmw3 p m)
  | not (m) : Good (.rmw2 .not) (.rmw3 .xor m)
  | neg (old m) : Good (.rmw2 .neg) (.neg old m)

theorem casMode_some {s f : MemOrd} (h : f ≠ .release ∧ f ≠ .acqRel) : ∃ m, casMode s f = some m := by
  cases s <;> cases f <;> first | exact ⟨_, rfl⟩ | simp at h

theorem casPwr8_some {s f : MemOrd} (h : f ≠ .release ∧ f ≠ .acqRel) : ∃ m, casPwr8 s f = .cas m := by
  obtain ⟨m, hm⟩ := casMode_some (s := s) h
  exact ⟨m, by rw [casPwr8, hm]⟩

theorem casWeakPwr8_some {s f : MemOrd} (h : f ≠ .release ∧ f ≠ .acqRel) : ∃ m, casWeakPwr8 s f = .casWeak m := by
  obtain ⟨m, hm⟩ := casMode_some (s := s) h
  exact ⟨m, by rw [casWeakPwr8, hm]⟩

theorem rmwBlock_quad {g : Cfg} {d : Bool} (h : g.quad = true ∨ d = true) (b : Mode → Block) (o : MemOrd) :
    rmwBlock g d b o = b (rmwMode o) := by
  unfold rmwBlock
  split
  · rfl
  · rcases h with h | rfl
    · contradiction
    · cases o <;> rfl

theorem casBlock_quad {g : Cfg} {d : Bool} (h : g.quad = true ∨ d = true) {s f : MemOrd}
    (hf : f ≠ .release ∧ f ≠ .acqRel) : ∃ m, casBlock g d s f = .cas m := by
  unfold casBlock
  split
  · exact casPwr8_some hf
  · rcases h with h | rfl
    · contradiction
    · cases s.upgradeSuccess f
      · exact casPwr8_some (s := .relaxed) (f := .relaxed) (by decide)
      · exact casPwr8_some (s := .release) (f := .relaxed) (by decide)
      · exact casPwr8_some (s := .acquire) (f := .acquire) (by decide)
      · exact casPwr8_some (s := .acqRel) (f := .acquire) (by decide)
      · exact casPwr8_some (s := .seqCst) (f := .seqCst) (by decide)

theorem select_good {g : Cfg} {d : Bool} (h : g.quad = true ∨ d = true) {op : WOp} {o f : MemOrd}
    (hv : op.OrdOk o f) : Good op (select g d op o f) := by
  cases op with
  | load =>
    simp only [select, loadBlock]
    split
    · cases o <;> first | exact .load | exact .loadAcq _ | simp [WOp.OrdOk] at hv
    · rcases h with h | rfl
      · contradiction
      · cases o <;> first | exact .load | exact .loadAcq _ | simp [WOp.OrdOk] at hv
  | store v =>
    simp only [select, storeBlock]
    split
    · cases o <;> first | exact .store _ _ | simp [WOp.OrdOk] at hv
    · rcases h with h | rfl
      · contradiction
      · cases o <;> first | exact .store _ _ | simp [WOp.OrdOk] at hv
  | swap v => rw [select, rmwBlock_quad h]; exact .swap _ _
  | cas x y =>
    obtain ⟨m, hm⟩ := casBlock_quad (s := o) h hv
    rw [select, hm]; exact .cas _ _ _
  | casWeak x y =>
    rw [select, casWeakBlock]
    split
    · obtain ⟨m, hm⟩ := casWeakPwr8_some (s := o) hv
      rw [hm]; exact .casWeak _ _ _
    · obtain ⟨m, hm⟩ := casBlock_quad (s := o) h hv
      rw [hm]; exact .weakCas _ _ _
  | rmw3 p v => rw [select, rmwBlock_quad h]; exact .rmw3 _ _ _
  | rmw2 p =>
    cases p with
    | not => rw [select, rmwBlock_quad h]; exact .not _
    | neg => rw [select, rmwBlock_quad h]; exact .neg _ _

theorem r0_ne {q : Reg} (h : q ∈ [Reg.dst, .r4, .r5, .r6, .r7, .r8, .r9]) : c.r0 ≠ some q := by
  intro e
  rcases c.nonzero q e with rfl | rfl | rfl | rfl | rfl | rfl | rfl <;> simp at h

theorem fn_not (x : BitVec 128) : (WOp.rmw2 .not).Sem x (fn3 .xor (~~~0) x) (.val x) := by
  have h := fn2_sem .not x
  have : fn2 .not x = fn3 .xor (~~~0) x := by
    show ~~~x = x ^^^ ~~~0
    exact (BitVec.xor_allOnes (x := x)).symm
  rw [← this]; exact h

theorem pt_loop3 {p : Op3} {v : BitVec 128} {m : Mode} (hcpu : E.cpu = true)
    (hsem : ∀ x, c.op.Sem x (fn3 p v x) (.val x)) (harg : argOf c.op = v)
    (hres : ∀ x t, resOf c.op x t = .val x)
    (hb : c.block E = .rmw3 p m) : Nonempty (Correct (blocks E) (spec E) c) := by
  have ho : ∀ q, q ∈ (c.block E).outs ↔ q ∈ [Reg.r6, .r7, .r8, .r9] := by intro q; rw [hb]; rfl
  refine ⟨loopPoints m (body3 p) (fun x s => s.reg .r6 = hi x ∧ s.reg .r7 = lo x ∧
      join (s.reg .r8) (s.reg .r9) = fn3 p v x) (prog_of hb) hcpu ?_ ?_ ?_ ?_ ?_⟩
  · rw [ho]; decide
  · entry hb rfl
  · rw [hb]; rfl
  · intro s x hs
    obtain ⟨s', h⟩ := body3_run (r0 := c.r0) (r0_ne (by decide)) (r0_ne (by decide)) (r0_ne (by decide)) p
      (s.got .r6 .r7 x)
    have hv1 : s.reg .valHi = hi v := (hs.reg _ (by rw [ho]; decide)).trans (by
      rw [entry_of hb rfl]; simp [Block.ins, reg_set, harg])
    have hv2 : s.reg .valLo = lo v := (hs.reg _ (by rw [ho]; decide)).trans (by
      rw [entry_of hb rfl]; simp [Block.ins, reg_set, harg])
    refine ⟨s', h.run, ?_, ?_, ?_, ?_⟩
    · refine hs.frame (Frame.trans (.got ((ho _).2 (by decide)) ((ho _).2 (by decide)))
        (s1 := s.got .r6 .r7 x) (Does.toFrame (body := body3 p)
          (f := fun s => fn3 p (join (s.reg .valHi) (s.reg .valLo)) (join (s.reg .r6) (s.reg .r7))) ?_ ((ho _).2 (by decide)) ((ho _).2 (by decide))
          (Or.inr (by rw [hb]; rfl))))
      · have e1 : (c.block E).clobCr1 = (Block.rmw3 p ⟨none, none⟩).clobCr1 := by rw [hb]; cases p <;> rfl
        have e2 : (c.block E).clobXer = (Block.rmw3 p ⟨none, none⟩).clobXer := by rw [hb]; cases p <;> rfl
        rw [e1, e2]; exact h
    · rw [h.frame _ (by decide) (by decide)]; rfl
    · rw [h.frame _ (by decide) (by decide)]; rfl
    · rw [h.val]
      have e1 : (s.got .r6 .r7 x).reg .valHi = s.reg .valHi := rfl
      have e2 : (s.got .r6 .r7 x).reg .valLo = s.reg .valLo := rfl
      have e3 : (s.got .r6 .r7 x).reg .r6 = hi x := rfl
      have e4 : (s.got .r6 .r7 x).reg .r7 = lo x := rfl
      rw [e1, e2, e3, e4, hv1, hv2, join_hi_lo, join_hi_lo]
  · rintro s x hs ⟨h1, h2, h3⟩
    rw [h3, result_of hb rfl, hres]
    have : join ((s.cc true).reg .r6) ((s.cc true).reg .r7) = x := by
      show join (s.reg .r6) (s.reg .r7) = x
      rw [h1, h2, join_hi_lo]
    simp only [Block.resRegs, this]
    exact hsem x

theorem pt_neg {old : Bool} {m : Mode} (hcpu : E.cpu = true) (hop : c.op = .rmw2 .neg)
    (hb : c.block E = .neg old m) : Nonempty (Correct (blocks E) (spec E) c) := by
  have ho : ∀ q, q ∈ (c.block E).outs ↔ q ∈ [Reg.r6, .r7, .r8, .r9] := by intro q; rw [hb]; rfl
  refine ⟨loopPoints m (bodyNeg old) (fun x s => s.reg .r6 = hi x ∧ s.reg .r7 = lo x ∧
      join (s.reg .r8) (s.reg .r9) = fn2 .neg x) (prog_of hb) hcpu ?_ ?_ ?_ ?_ ?_⟩
  · rw [ho]; decide
  · rw [entry_of hb hop]; cases old <;> simp [Block.ins, reg_set]
  · rw [hb]; rfl
  · intro s x hs
    have hz : old = true → (s.got .r6 .r7 x).reg .zero = 0 := by
      rintro rfl
      exact (hs.reg .zero (by rw [ho]; decide)).trans (by entry hb hop)
    obtain ⟨s', h⟩ := bodyNeg_run (r0 := c.r0) old (s.got .r6 .r7 x) hz
    refine ⟨s', h.run, ?_, ?_, ?_, ?_⟩
    · refine hs.frame (Frame.trans (.got ((ho _).2 (by decide)) ((ho _).2 (by decide)))
        (s1 := s.got .r6 .r7 x) (Does.toFrame (body := bodyNeg old)
          (f := fun s => fn2 .neg (join (s.reg .r6) (s.reg .r7))) ?_ ((ho _).2 (by decide)) ((ho _).2 (by decide))
          (Or.inr (by rw [hb]; rfl))))
      · have e1 : (c.block E).clobCr1 = false := by rw [hb]; rfl
        have e2 : (c.block E).clobXer = true := by rw [hb]; rfl
        rw [e1, e2]; exact h
    · rw [h.frame _ (by decide) (by decide)]; rfl
    · rw [h.frame _ (by decide) (by decide)]; rfl
    · rw [h.val]
      have e3 : (s.got .r6 .r7 x).reg .r6 = hi x := rfl
      have e4 : (s.got .r6 .r7 x).reg .r7 = lo x := rfl
      rw [e3, e4, join_hi_lo]
  · rintro s x hs ⟨h1, h2, h3⟩
    rw [h3, result_of hb hop, hop]
    have : join ((s.cc true).reg .r6) ((s.cc true).reg .r7) = x := by
      show join (s.reg .r6) (s.reg .r7) = x
      rw [h1, h2, join_hi_lo]
    simp only [Block.resRegs, this]
    exact fn2_sem .neg x

theorem pt_swap {v : BitVec 128} {m : Mode} (hcpu : E.cpu = true) (hop : c.op = .swap v)
    (hb : c.block E = .swap m) : Nonempty (Correct (blocks E) (spec E) c) := by
  have ho : ∀ q, q ∈ (c.block E).outs ↔ q ∈ [Reg.r6, .r7] := by intro q; rw [hb]; rfl
  refine ⟨loopPoints m [] (fun x s => s.reg .r6 = hi x ∧ s.reg .r7 = lo x) (prog_of hb) hcpu ?_ ?_ ?_ ?_ ?_⟩
  · rw [ho]; decide
  · entry hb hop
  · rw [hb]; rfl
  · intro s x hs
    exact ⟨_, rfl, hs.frame (.got ((ho _).2 (by decide)) ((ho _).2 (by decide))), rfl, rfl⟩
  · rintro s x hs ⟨h1, h2⟩
    have hv1 : s.reg .r8 = hi v := (hs.reg _ (by rw [ho]; decide)).trans (by entry hb hop)
    have hv2 : s.reg .r9 = lo v := (hs.reg _ (by rw [ho]; decide)).trans (by entry hb hop)
    rw [hv1, hv2, join_hi_lo, hop, result_of hb hop]
    have : join ((s.cc true).reg .r6) ((s.cc true).reg .r7) = x := by
      show join (s.reg .r6) (s.reg .r7) = x
      rw [h1, h2, join_hi_lo]
    simp only [Block.resRegs, this]
    exact ⟨rfl, rfl⟩

theorem casBlock_of {m : CasMode} {retry : List Ins} {old new : BitVec 128} {b : Block} (hcpu : E.cpu = true)
    (hop : c.op = .cas old new ∨ c.op = .casWeak old new)
    (hb : c.block E = b) (hb' : (b = .cas m ∧ retry = [.bne (fenceIf m.rel).length]) ∨ (b = .casWeak m ∧ retry = [])) :
    CasBlock E c m retry old new := by
  have hent : ∀ q, (c.entry E).reg q = if q = .oldHi then hi old else if q = .oldLo then lo old else
      if q = .r6 then hi new else if q = .r7 then lo new else if q = .dst then c.addr else c.st.reg q := by
    intro q
    rcases hb' with ⟨rfl, -⟩ | ⟨rfl, -⟩ <;> rcases hop with hop | hop <;> rw [entry_of hb hop] <;> rfl
  refine ⟨?_, hcpu, ?_, ?_, ?_, ?_, ?_, ?_, ?_, ?_⟩
  · rw [prog_of hb]
    rcases hb' with ⟨rfl, rfl⟩ | ⟨rfl, rfl⟩
    · simp [Block.code]
    · simp [Block.code]
  · rw [hb]; rcases hb' with ⟨rfl, -⟩ | ⟨rfl, -⟩ <;> rfl
  · rw [hb]; rcases hb' with ⟨rfl, -⟩ | ⟨rfl, -⟩ <;> rfl
  · rw [hent]; rfl
  · rw [hent]; rfl
  · rw [hent]; rfl
  · rw [hent]; rfl
  · rw [hent]; rfl
  · intro s
    rcases hb' with ⟨rfl, -⟩ | ⟨rfl, -⟩ <;> rcases hop with hop | hop <;> rw [result_of hb hop] <;> rfl

theorem pt_load (hcpu : E.cpu = true) (hop : c.op = .load) (hb : c.block E = .load) :
    Nonempty (Correct (blocks E) (spec E) c) := by
  have ho : ∀ q, q ∈ (c.block E).outs ↔ q ∈ [Reg.r4, .r5] := by intro q; rw [hb]; rfl
  have hx : (c.entry E).ra0 c.r0 .dst = c.addr := by
    rw [ra0_ne (r0_ne (by decide))]; entry hb hop
  refine ⟨onePoints none (.lq .r4 .dst) [] (prog_of hb) _ _
    (sem_lq E.cpu c.r0 c.addr (c.entry E) (d := .r4) (d' := .r5) (base := .dst) rfl hx hcpu (by decide) (by decide))
    fun x x' r hr => ?_⟩
  obtain ⟨rfl, rfl⟩ := sem_load (by decide) hr
  refine ⟨_, _, .refl _ _, ?_, ?_, preserved_entry.frame (.got (d := .r4) (d' := .r5)
    ((ho _).2 (by decide)) ((ho _).2 (by decide)))⟩
  · rw [prog_of hb]; rfl
  · rw [hop, result_of hb hop]
    refine ⟨rfl, ?_⟩
    exact congrArg Res.val (join_hi_lo x')

theorem pt_loadAcq {k : Option Fence} (hcpu : E.cpu = true) (hop : c.op = .load) (hb : c.block E = .loadAcq k) :
    Nonempty (Correct (blocks E) (spec E) c) := by
  have ho : ∀ q, q ∈ (c.block E).outs ↔ q ∈ [Reg.r4, .r5] := by intro q; rw [hb]; rfl
  have hx : (c.entry E).ra0 c.r0 .dst = c.addr := by
    rw [ra0_ne (r0_ne (by decide))]; entry hb hop
  have hprog : (blocks E).prog c = fenceIf k ++ [.lq .r4 .dst] ++
      [.cmpw .r4 .r4, .bne ((fenceIf k).length + 3), .fence .isync] := by
    rw [prog_of hb]; simp [Block.code]
  refine ⟨onePoints k (.lq .r4 .dst) [.cmpw .r4 .r4, .bne ((fenceIf k).length + 3), .fence .isync] hprog _ _
    (sem_lq E.cpu c.r0 c.addr (c.entry E) (d := .r4) (d' := .r5) (base := .dst) rfl hx hcpu (by decide) (by decide))
    fun x x' r hr => ?_⟩
  obtain ⟨rfl, rfl⟩ := sem_load (by decide) hr
  have hat : ∀ j, ((blocks E).prog c)[(fenceIf k).length + 1 + j]? =
      ([.cmpw .r4 .r4, .bne ((fenceIf k).length + 3), .fence .isync] : List Ins)[j]? := by
    intro j
    have := idx (fenceIf k ++ [.lq .r4 .dst]) [.cmpw .r4 .r4, .bne ((fenceIf k).length + 3), .fence .isync] j
    rw [hprog, ← this]
    simp
  let s1 := (c.entry E).got .r4 .r5 x'
  let w := (s1.reg .r4).extractLsb' 0 32
  let s2 : St := { s1 with cr0 := ⟨w.slt w, w.slt w, w == w, s1.so⟩ }
  refine ⟨(fenceIf k).length + 1 + 3, s2, ?_, ?_, ?_, preserved_entry.frame (Frame.trans (s1 := s1)
    (.got (d := .r4) (d' := .r5) ((ho _).2 (by decide)) ((ho _).2 (by decide))) (.setCr0 (by rw [hb]; rfl)))⟩
  · refine Go.go (hat 0) (s' := s2) rfl ?_
    refine Go.br (i := .bne ((fenceIf k).length + 3)) (b := !s2.cr0.eq) (n := (fenceIf k).length + 3) (by have := hat 1; simpa using this) rfl ?_
    have : (if (!s2.cr0.eq) = true then (fenceIf k).length + 3 else (fenceIf k).length + 1 + 1 + 1) =
      (fenceIf k).length + 1 + 2 := by split <;> omega
    rw [this]
    exact Go.go (i := .fence .isync) (s' := s2) (by have := hat 2; simpa using this) rfl (.refl _ _)
  · rw [hat]; rfl
  · rw [hop, result_of hb hop]
    refine ⟨rfl, ?_⟩
    exact congrArg Res.val (join_hi_lo x')

theorem pt_store {k : Option Fence} {v : BitVec 128} (hcpu : E.cpu = true) (hop : c.op = .store v)
    (hb : c.block E = .store k) : Nonempty (Correct (blocks E) (spec E) c) := by
  have hx : (c.entry E).ra0 c.r0 .dst = c.addr := by
    rw [ra0_ne (r0_ne (by decide))]; entry hb hop
  have h1 : (c.entry E).reg .r4 = hi v := by entry hb hop
  have h2 : (c.entry E).reg .r5 = lo v := by entry hb hop
  refine ⟨onePoints k (.stq .r4 .dst) [] (by rw [prog_of hb]; simp [Block.code]) _ _
    (sem_stq E.cpu c.r0 c.addr (c.entry E) (d := .r4) (d' := .r5) (base := .dst) rfl hx hcpu)
    fun x x' r hr => ?_⟩
  rw [h1, h2, join_hi_lo] at hr
  obtain ⟨rfl, -⟩ := sem_store (by decide) hr
  refine ⟨_, _, .refl _ _, ?_, ?_, preserved_entry⟩
  · rw [prog_of hb]; simp [Block.code]
  · rw [hop, result_of hb hop]
    exact ⟨rfl, rfl⟩

/-- **Every call is correct at each of its accesses.** -/
theorem correct_exist (hE : E.Ok) (hq : E.Quad) (c : Call) : Nonempty (Correct (blocks E) (spec E) c) := by
  have hcpu : E.cpu = true := hq.elim hE.built hE.detected
  have hg : Good c.op (c.block E) := select_good hq c.valid
  generalize hop : c.op = op at hg
  generalize hb : c.block E = b at hg
  cases hg with
  | load => exact pt_load hcpu hop hb
  | loadAcq k => exact pt_loadAcq hcpu hop hb
  | store v k => exact pt_store hcpu hop hb
  | cas x y m => exact ⟨(casBlock_of hcpu (Or.inl hop) hb (Or.inl ⟨rfl, rfl⟩)).strong (Or.inl hop)⟩
  | weakCas x y m => exact ⟨(casBlock_of hcpu (Or.inr hop) hb (Or.inl ⟨rfl, rfl⟩)).strong (Or.inr hop)⟩
  | casWeak x y m => exact ⟨(casBlock_of hcpu (Or.inr hop) hb (Or.inr ⟨rfl, rfl⟩)).weak hop⟩
  | swap v m => exact pt_swap hcpu hop hb
  | rmw3 p v m =>
    exact pt_loop3 hcpu (v := v) (fun x => by rw [hop]; exact fn3_sem p v x) (by rw [hop]; rfl)
      (fun x t => by rw [hop]; rfl) hb
  | not m =>
    exact pt_loop3 hcpu (v := ~~~0) (fun x => by rw [hop]; exact fn_not x) (by rw [hop]; rfl)
      (fun x t => by rw [hop]; rfl) hb
  | neg old m => exact pt_neg hcpu hop hb

end Verif.Ppc
