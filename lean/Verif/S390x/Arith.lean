import Verif.Spec.S390x
import Verif.Ppc.Arith
/-!
# The register sequences of the s390x back end compute the 128-bit operations (C41)
-/
set_option autoImplicit false
namespace Verif.S390x
open Verif.X86 (fn3 fn2 toNat_join toInt_join join_halves hi_join lo_join hi lo)
open Verif.Wide
open Verif.Arm (add_halves sub_halves neg_halves)
open Verif.Ppc (ult_split slt_split sel_words ult_self slt_self umin_alt min_alt)

theorem join_hi_lo (x : BitVec 128) : join (hi x) (lo x) = x := join_halves x

/-- Run register-only instructions. -/
def execs (f : Feat) : List Ins → St → Option St
  | [], s => some s
  | i :: is, s => (i.exec f s).bind (execs f is)

theorem execs_append {f : Feat} {a b : List Ins} {s s1 s2 : St} (h : execs f a s = some s1)
    (h' : execs f b s1 = some s2) : execs f (a ++ b) s = some s2 := by
  induction a generalizing s with
  | nil => cases h; exact h'
  | cons i is ih =>
    simp only [execs, Option.bind_eq_some_iff, List.cons_append] at h ⊢
    obtain ⟨s3, h1, h2⟩ := h
    exact ⟨s3, h1, ih h2⟩

theorem reg_set (s : St) (q p : Reg) (x : BitVec 64) :
    (s.set q x).reg p = if p = q then x else s.reg p := rfl

theorem set_set (s : St) (q : Reg) (x y : BitVec 64) : (s.set q x).set q y = s.set q y := by
  unfold St.set
  congr 1
  funext p
  by_cases h : p = q <;> simp [h]

/-! ## Condition codes -/

theorem cc_e_S (a b : BitVec 64) : Cond.e.cc (cmpS a b) = (a == b) := by
  unfold Cond.cc cmpS
  cases a == b <;> cases a.slt b <;> decide

theorem cc_e_U (a b : BitVec 64) : Cond.e.cc (cmpU a b) = (a == b) := by
  unfold Cond.cc cmpU
  cases a == b <;> cases a.ult b <;> decide

theorem cc_l_S (a b : BitVec 64) : Cond.l.cc (cmpS a b) = a.slt b := by
  unfold Cond.cc cmpS
  by_cases h : a = b
  · subst h; simp [BitVec.slt]
  · rw [if_neg (by simpa using h)]; cases a.slt b <;> decide

theorem cc_l_U (a b : BitVec 64) : Cond.l.cc (cmpU a b) = a.ult b := by
  unfold Cond.cc cmpU
  by_cases h : a = b
  · subst h; simp [BitVec.ult]
  · rw [if_neg (by simpa using h)]; cases a.ult b <;> decide

theorem slt_or (a b : BitVec 64) (h : a ≠ b) : (!a.slt b) = b.slt a := by
  have : a.toInt ≠ b.toInt := fun e => h (BitVec.eq_of_toInt_eq e)
  simp only [BitVec.slt]
  rw [← decide_not]
  apply decide_eq_decide.2
  omega

theorem ult_or (a b : BitVec 64) (h : a ≠ b) : (!a.ult b) = b.ult a := by
  have : a.toNat ≠ b.toNat := fun e => h (BitVec.eq_of_toNat_eq e)
  simp only [BitVec.ult]
  rw [← decide_not]
  apply decide_eq_decide.2
  omega

theorem cc_h_S (a b : BitVec 64) : Cond.h.cc (cmpS a b) = b.slt a := by
  unfold Cond.cc cmpS
  by_cases h : a = b
  · subst h; simp [BitVec.slt]
  · rw [if_neg (by simpa using h), ← slt_or a b h]; cases a.slt b <;> decide

theorem cc_h_U (a b : BitVec 64) : Cond.h.cc (cmpU a b) = b.ult a := by
  unfold Cond.cc cmpU
  by_cases h : a = b
  · subst h; simp [BitVec.ult]
  · rw [if_neg (by simpa using h), ← ult_or a b h]; cases a.ult b <;> decide

theorem cc_he_U (a b : BitVec 64) : Cond.he.cc (cmpU a b) = !a.ult b := by
  unfold Cond.cc cmpU
  by_cases h : a = b
  · subst h; simp [BitVec.ult]
  · rw [if_neg (by simpa using h)]; cases a.ult b <;> decide

theorem cc_le_U (a b : BitVec 64) : Cond.le.cc (cmpU a b) = !b.ult a := by
  unfold Cond.cc cmpU
  by_cases h : a = b
  · subst h; simp [BitVec.ult]
  · rw [if_neg (by simpa using h), ← ult_or a b h]; cases a.ult b <;> decide

theorem carry_cc (c : Bool) (x : BitVec 64) : (ccCarry c x).getLsbD 1 = c := by
  unfold ccCarry
  cases c <;> cases (x != 0) <;> decide

/-- `extract_cc` of what `ipm` leaves in the register, whatever was there, whatever the program mask. -/
theorem extractCc_ipm (cc : BitVec 2) (m : BitVec 4) (x : BitVec 64) : extractCc (ipmOf cc m x) = (cc == 0) := by
  have h1 : ((1 : BitVec 64) <<< 31) = BitVec.twoPow 64 31 := by decide
  have hn : (ipmOf cc m x).toNat = (x.toNat / 2 ^ 32 % 2 ^ 32) * 2 ^ 32 + cc.toNat * 2 ^ 28 + m.toNat * 2 ^ 24 + x.toNat % 2 ^ 24 := by
    unfold ipmOf
    simp only [BitVec.toNat_append, BitVec.extractLsb'_toNat, Nat.shiftRight_eq_div_pow]
    have hc := cc.isLt; have hm := m.isLt
    have e : ∀ (a b k : Nat), b < 2 ^ k → a <<< k ||| b = a * 2 ^ k + b := fun a b k h => by
      rw [← Nat.shiftLeft_add_eq_or_of_lt h, Nat.shiftLeft_eq]
    have h0 : (0 : BitVec 2).toNat = 0 := rfl
    rw [h0]
    rw [e _ _ 24 (Nat.mod_lt _ (by decide)), e _ _ 4 hm, e _ _ 2 hc, e _ _ 2 (by decide)]
    omega
  have hx := x.isLt
  have hc := cc.isLt; have hm := m.isLt
  have hk : (-268435456 : BitVec 64).toNat = 2 ^ 64 - 2 ^ 28 := by decide
  have hb : (ipmOf cc m x + (-268435456)).getLsbD 31 = (cc == 0) := by
    rw [BitVec.getLsbD, Nat.testBit_eq_decide_div_mod_eq, BitVec.toNat_add, hn, hk]
    have : (cc == 0) = decide (cc.toNat = 0) := by
      rw [Bool.eq_iff_iff]; simp [← BitVec.toNat_inj]
    rw [this]
    apply decide_eq_decide.2
    omega
  rw [extractCc, h1, BitVec.and_twoPow, hb]
  cases cc == 0 <;> decide

/-! ## Pieces -/

section
variable {f : Feat} {g : Cfg}

/-- The state after `d := a op b`. -/
def St.alu (s : St) (o : Alu) (d : Reg) (x y : BitVec 64) : St := { s.set d (o.fn x y).1 with cc := (o.fn x y).2 }

theorem distinct_run (h : g.feat.distinct = true → f.distinct = true) {o : Alu} {a0 a1 a2 : Reg} (h2 : a2 ≠ a0)
    (s : St) : execs f (distinct g o a0 a1 a2) s = some (s.alu o a0 (s.reg a1) (s.reg a2)) := by
  unfold distinct
  cases hd : g.feat.distinct with
  | true => simp only [if_true, execs, Ins.exec, h hd, Option.bind_some]; rfl
  | false =>
    simp only [Bool.false_eq_true, if_false, execs, Ins.exec, Option.bind_some, reg_set, if_neg h2, if_true, St.alu]
    congr 2
    rw [set_set]

theorem selectOp_run (h : g.feat.misc3 = true → f.misc3 = true) (hl : f.loc = true) {k : Cond}
    {a0 a1 a2 : Reg} (h1 : a1 ≠ a0) (s : St) :
    execs f (selectOp g k a0 a1 a2) s = some (s.set a0 (if k.cc s.cc then s.reg a1 else s.reg a2)) := by
  unfold selectOp
  cases hd : g.feat.misc3 with
  | true => simp only [if_true, execs, Ins.exec, h hd, Option.bind_some]
  | false =>
    simp only [Bool.false_eq_true, if_false, execs, Ins.exec, Option.bind_some, hl, if_true, reg_set, if_neg h1]
    rw [set_set]; rfl

theorem locgr_run (hl : f.loc = true) {k : Cond} {a0 a1 : Reg} (s : St) :
    execs f [.locgr k a0 a1] s = some (s.set a0 (if k.cc s.cc then s.reg a1 else s.reg a0)) := by
  simp only [execs, Ins.exec, hl, if_true, Option.bind_some]

theorem clgr_run {a b : Reg} (s : St) :
    execs f [.clgr a b] s = some { s with cc := cmpU (s.reg a) (s.reg b) } := rfl

theorem cgr_run {a b : Reg} (s : St) :
    execs f [.cgr a b] s = some { s with cc := cmpS (s.reg a) (s.reg b) } := rfl

/-! Selecting word by word -/

theorem sel_max (a b c d : BitVec 64) :
    (if Cond.h.cc (cmpS a c) then a else c) ++
      (if Cond.e.cc (cmpS a c) then (if Cond.h.cc (cmpU b d) then b else d)
        else (if Cond.h.cc (cmpS a c) then b else d)) = fn3 .max (c ++ d) (a ++ b) := by
  rw [cc_h_S, cc_e_S, cc_h_U]
  refine sel_words _ _ _ _ _ _ _ ((slt_split _ _ _ _).trans ?_) (fun h => slt_self h.symm)
  rw [BEq.comm]

theorem sel_min (a b c d : BitVec 64) :
    (if Cond.l.cc (cmpS a c) then a else c) ++
      (if Cond.e.cc (cmpS a c) then (if Cond.l.cc (cmpU b d) then b else d)
        else (if Cond.l.cc (cmpS a c) then b else d)) = fn3 .min (c ++ d) (a ++ b) := by
  rw [cc_l_S, cc_e_S, cc_l_U, min_alt]
  exact sel_words _ _ _ _ _ _ _ (slt_split _ _ _ _) slt_self

theorem sel_umax (a b c d : BitVec 64) :
    (if Cond.h.cc (cmpU a c) then a else c) ++
      (if Cond.e.cc (cmpS a c) then (if Cond.h.cc (cmpU b d) then b else d)
        else (if Cond.h.cc (cmpU a c) then b else d)) = fn3 .umax (c ++ d) (a ++ b) := by
  rw [cc_h_U, cc_e_S, cc_h_U]
  refine sel_words _ _ _ _ _ _ _ ((ult_split _ _ _ _).trans ?_) (fun h => ult_self h.symm)
  rw [BEq.comm]

theorem sel_umin (a b c d : BitVec 64) :
    (if Cond.l.cc (cmpU a c) then a else c) ++
      (if Cond.e.cc (cmpS a c) then (if Cond.l.cc (cmpU b d) then b else d)
        else (if Cond.l.cc (cmpU a c) then b else d)) = fn3 .umin (c ++ d) (a ++ b) := by
  rw [cc_l_U, cc_e_S, cc_l_U, umin_alt]
  exact sel_words _ _ _ _ _ _ _ (ult_split _ _ _ _) ult_self

theorem lcgr_aghi (x : BitVec 64) : -x + (-1) = ~~~x := by
  rw [BitVec.neg_eq_not_add]; 
  rw [BitVec.add_assoc]
  have : (1#64 + -1) = 0#64 := by decide
  rw [this, BitVec.add_zero]

end

/-- What a body must do. -/
structure Does (f : Feat) (body : List Ins) (h : St → BitVec 128) (outs : List Reg) (s s' : St) : Prop where
  run : execs f body s = some s'
  val : join (s'.reg .r12) (s'.reg .r13) = h s
  frame : ∀ q, q ∉ outs → s'.reg q = s.reg q
  mask : s'.mask = s.mask

/-- Registers not written by a body. -/
macro "body_frame" : tactic => `(tactic|
  (intro q hq; cases q <;> first | rfl | exact absurd (by decide) hq))

/-- `max` and friends without `load-store-on-cond` do not use these bodies. -/
def needsLoc (o : Op3) : Bool := isCmp o

/-- Registers written by the bodies. -/
def outs3 : Op3 → List Reg
  | .umax | .umin => [.r12, .r13, .tmp]
  | _ => [.r12, .r13]

open Ins Reg in
/-- The sequence of `max` (`h`) and `min` (`l`). -/
theorem maxSeq_run {E : Env} {s : St} (k : Cond) (hE : E.Ok) (hl : E.cpu.loc = true) :
    ∃ s', execs E.cpu ([clgr r1 valLo] ++ selectOp E.cfg k r12 r1 valLo ++ [cgr r0 valHi] ++
        selectOp E.cfg k r13 r1 valLo ++ [locgr .e r13 r12] ++ selectOp E.cfg k r12 r0 valHi) s = some s' ∧
      s'.reg .r12 = (if k.cc (cmpS (s.reg .r0) (s.reg .valHi)) then s.reg .r0 else s.reg .valHi) ∧
      s'.reg .r13 = (if Cond.e.cc (cmpS (s.reg .r0) (s.reg .valHi)) then
          (if k.cc (cmpU (s.reg .r1) (s.reg .valLo)) then s.reg .r1 else s.reg .valLo)
        else (if k.cc (cmpS (s.reg .r0) (s.reg .valHi)) then s.reg .r1 else s.reg .valLo)) ∧
      (∀ q, q ∉ [Reg.r12, .r13] → s'.reg q = s.reg q) ∧ s'.mask = s.mask := by
  let s1 : St := { s with cc := cmpU (s.reg .r1) (s.reg .valLo) }
  let s2 : St := s1.set r12 (if k.cc s1.cc then s1.reg r1 else s1.reg valLo)
  let s3 : St := { s2 with cc := cmpS (s2.reg .r0) (s2.reg .valHi) }
  let s4 : St := s3.set r13 (if k.cc s3.cc then s3.reg r1 else s3.reg valLo)
  let s5 : St := s4.set r13 (if Cond.e.cc s4.cc then s4.reg r12 else s4.reg r13)
  let s6 : St := s5.set r12 (if k.cc s5.cc then s5.reg r0 else s5.reg valHi)
  refine ⟨s6, ?_, rfl, rfl, ?_, rfl⟩
  · exact execs_append (s1 := s5) (execs_append (s1 := s4) (execs_append (s1 := s3) (execs_append (s1 := s2)
      (execs_append (s1 := s1) (clgr_run s) (selectOp_run hE.misc3 hl (by decide) s1)) (cgr_run s2))
      (selectOp_run hE.misc3 hl (by decide) s3)) (locgr_run hl s4)) (selectOp_run hE.misc3 hl (by decide) s5)
  · intro q hq
    simp only [List.mem_cons, List.not_mem_nil, or_false, not_or] at hq
    simp only [s6, s5, s4, s3, s2, s1, reg_set, if_neg hq.1, if_neg hq.2]

open Ins Reg in
/-- The sequence of `umax` (`h`) and `umin` (`l`). -/
theorem umaxSeq_run {E : Env} {s : St} (k : Cond) (hE : E.Ok) (hl : E.cpu.loc = true) :
    ∃ s', execs E.cpu ([clgr r1 valLo] ++ selectOp E.cfg k tmp r1 valLo ++ [clgr r0 valHi] ++
        selectOp E.cfg k r12 r0 valHi ++ selectOp E.cfg k r13 r1 valLo ++ [cgr r0 valHi, locgr .e r13 tmp]) s = some s' ∧
      s'.reg .r12 = (if k.cc (cmpU (s.reg .r0) (s.reg .valHi)) then s.reg .r0 else s.reg .valHi) ∧
      s'.reg .r13 = (if Cond.e.cc (cmpS (s.reg .r0) (s.reg .valHi)) then
          (if k.cc (cmpU (s.reg .r1) (s.reg .valLo)) then s.reg .r1 else s.reg .valLo)
        else (if k.cc (cmpU (s.reg .r0) (s.reg .valHi)) then s.reg .r1 else s.reg .valLo)) ∧
      (∀ q, q ∉ [Reg.r12, .r13, .tmp] → s'.reg q = s.reg q) ∧ s'.mask = s.mask := by
  let s1 : St := { s with cc := cmpU (s.reg .r1) (s.reg .valLo) }
  let s2 : St := s1.set tmp (if k.cc s1.cc then s1.reg r1 else s1.reg valLo)
  let s3 : St := { s2 with cc := cmpU (s2.reg .r0) (s2.reg .valHi) }
  let s4 : St := s3.set r12 (if k.cc s3.cc then s3.reg r0 else s3.reg valHi)
  let s5 : St := s4.set r13 (if k.cc s4.cc then s4.reg r1 else s4.reg valLo)
  let s6 : St := { s5 with cc := cmpS (s5.reg .r0) (s5.reg .valHi) }
  let s7 : St := s6.set r13 (if Cond.e.cc s6.cc then s6.reg tmp else s6.reg r13)
  refine ⟨s7, ?_, rfl, rfl, ?_, rfl⟩
  · exact execs_append (s1 := s5) (execs_append (s1 := s4) (execs_append (s1 := s3) (execs_append (s1 := s2)
      (execs_append (s1 := s1) (clgr_run s) (selectOp_run hE.misc3 hl (by decide) s1)) (clgr_run s2))
      (selectOp_run hE.misc3 hl (by decide) s3)) (selectOp_run hE.misc3 hl (by decide) s4))
      (execs_append (a := [.cgr .r0 .valHi]) (cgr_run s5) (locgr_run hl s6))
  · intro q hq
    simp only [List.mem_cons, List.not_mem_nil, or_false, not_or] at hq
    simp only [s7, s6, s5, s4, s3, s2, s1, reg_set, if_neg hq.1, if_neg hq.2.1, if_neg hq.2.2]

open Ins Reg in
/-- `lcgr r13, a; aghi r13, -1; lcgr r12, b; aghi r12, -1`. -/
theorem notSeq_run (f : Feat) (a b : Reg) (s : St) (hb : b ≠ .r13 := by decide) :
    ∃ s', execs f [lcgr r13 a, aghi r13 (-1), lcgr r12 b, aghi r12 (-1)] s = some s' ∧
      s'.reg .r12 = ~~~s.reg b ∧ s'.reg .r13 = ~~~s.reg a ∧
      (∀ q, q ∉ [Reg.r12, .r13] → s'.reg q = s.reg q) ∧ s'.mask = s.mask := by
  let s1 : St := { s.set r13 (-s.reg a) with cc := ccSigned (-s.reg a) (-(s.reg a).toInt) }
  let s2 : St := { s1.set r13 (s1.reg r13 + (-1)) with cc := ccSigned (s1.reg r13 + (-1)) ((s1.reg r13).toInt + (-1 : BitVec 64).toInt) }
  let s3 : St := { s2.set r12 (-s2.reg b) with cc := ccSigned (-s2.reg b) (-(s2.reg b).toInt) }
  let s4 : St := { s3.set r12 (s3.reg r12 + (-1)) with cc := ccSigned (s3.reg r12 + (-1)) ((s3.reg r12).toInt + (-1 : BitVec 64).toInt) }
  refine ⟨s4, ?_, ?_, ?_, ?_, rfl⟩
  · simp only [execs, Ins.exec, Option.bind_some, s4, s3, s2, s1]
  · have e : s2.reg b = s.reg b := by
      simp only [s2, s1, reg_set, if_neg hb]
    have : s4.reg .r12 = -s2.reg b + (-1) := rfl
    rw [this, e, lcgr_aghi]
  · have : s4.reg .r13 = -s.reg a + (-1) := rfl
    rw [this, lcgr_aghi]
  · intro q hq
    simp only [List.mem_cons, List.not_mem_nil, or_false, not_or] at hq
    simp only [s4, s3, s2, s1, reg_set, if_neg hq.1, if_neg hq.2]

theorem body3_run {E : Env} (hE : E.Ok) (o : Op3) (hl : isCmp o = true → E.cpu.loc = true) (s : St) :
    ∃ s', Does E.cpu (body3 E.cfg o) (fun s => fn3 o (join (s.reg .valHi) (s.reg .valLo)) (join (s.reg .r0) (s.reg .r1)))
      (outs3 o) s s' := by
  cases o with
  | add =>
    refine ⟨_, execs_append (distinct_run hE.distinct (by decide) s) rfl, ?_, by body_frame, rfl⟩
    refine Eq.trans ?_ (add_halves (s.reg .r1) (s.reg .r0) (s.reg .valLo) (s.reg .valHi))
    show join (Arm.addc (s.reg .r0) (s.reg .valHi) ((ccCarry _ _).getLsbD 1)) _ = _
    rw [carry_cc]; rfl
  | sub =>
    refine ⟨_, execs_append (distinct_run hE.distinct (by decide) s) rfl, ?_, by body_frame, rfl⟩
    refine Eq.trans ?_ (sub_halves (s.reg .r1) (s.reg .r0) (s.reg .valLo) (s.reg .valHi))
    show join (Arm.addc (s.reg .r0) (~~~s.reg .valHi) ((ccCarry _ _).getLsbD 1)) _ = _
    rw [carry_cc]; rfl
  | and => exact ⟨_, execs_append (distinct_run hE.distinct (by decide) s) (distinct_run hE.distinct (by decide) _), BitVec.and_append.symm, by body_frame, rfl⟩
  | or => exact ⟨_, execs_append (distinct_run hE.distinct (by decide) s) (distinct_run hE.distinct (by decide) _), BitVec.or_append.symm, by body_frame, rfl⟩
  | xor => exact ⟨_, execs_append (distinct_run hE.distinct (by decide) s) (distinct_run hE.distinct (by decide) _), BitVec.xor_append.symm, by body_frame, rfl⟩
  | nand =>
    have hfin : ∀ a b c d : BitVec 64, ~~~(a &&& b) ++ ~~~(c &&& d) = ~~~((a ++ c) &&& (b ++ d)) := fun a b c d =>
      (BitVec.not_append.symm).trans (congrArg (~~~ ·) BitVec.and_append.symm)
    cases hm : E.cfg.feat.misc3 with
    | true =>
      let s1 : St := { s.set .r13 (~~~(s.reg .r1 &&& s.reg .valLo)) with cc := ccBits (~~~(s.reg .r1 &&& s.reg .valLo)) }
      let s2 : St := { s1.set .r12 (~~~(s1.reg .r0 &&& s1.reg .valHi)) with cc := ccBits (~~~(s1.reg .r0 &&& s1.reg .valHi)) }
      refine ⟨s2, ?_, ?_, ?_, rfl⟩
      · simp only [body3, hm, if_true, execs, Ins.exec, hE.misc3 hm, Option.bind_some, s2, s1]
      · have e1 : s2.reg .r12 = ~~~(s.reg .r0 &&& s.reg .valHi) := rfl
        have e2 : s2.reg .r13 = ~~~(s.reg .r1 &&& s.reg .valLo) := rfl
        rw [e1, e2]
        exact hfin (s.reg .r0) (s.reg .valHi) (s.reg .r1) (s.reg .valLo)
      · intro q hq
        simp only [outs3, List.mem_cons, List.not_mem_nil, or_false, not_or] at hq
        simp only [s2, s1, reg_set, if_neg hq.1, if_neg hq.2]
    | false =>
      have e : body3 E.cfg .nand = distinct E.cfg .ng .r13 .r1 .valLo ++ distinct E.cfg .ng .r12 .r0 .valHi ++
          [.lcgr .r13 .r13, .aghi .r13 (-1), .lcgr .r12 .r12, .aghi .r12 (-1)] := by
        simp only [body3, hm, Bool.false_eq_true, if_false]
      rw [e]
      let s1 := s.alu .ng .r13 (s.reg .r1) (s.reg .valLo)
      let s2 := s1.alu .ng .r12 (s1.reg .r0) (s1.reg .valHi)
      obtain ⟨s', h1, h2, h3, h4, h5⟩ := notSeq_run E.cpu .r13 .r12 s2
      refine ⟨s', execs_append (execs_append (distinct_run hE.distinct (by decide) s)
        (distinct_run hE.distinct (by decide) s1)) h1, ?_, ?_, h5⟩
      · rw [h2, h3]
        exact hfin (s.reg .r0) (s.reg .valHi) (s.reg .r1) (s.reg .valLo)
      · intro q hq
        rw [h4 q hq]
        simp only [outs3, List.mem_cons, List.not_mem_nil, or_false, not_or] at hq
        show (if q = .r12 then _ else if q = .r13 then _ else _) = _
        rw [if_neg hq.1, if_neg hq.2]
  | umax =>
    obtain ⟨s', h1, h2, h3, h4, h5⟩ := umaxSeq_run (s := s) .h hE (hl rfl)
    exact ⟨s', h1, by rw [h2, h3]; exact sel_umax _ _ _ _, h4, h5⟩
  | max =>
    obtain ⟨s', h1, h2, h3, h4, h5⟩ := maxSeq_run (s := s) .h hE (hl rfl)
    exact ⟨s', h1, by rw [h2, h3]; exact sel_max _ _ _ _, h4, h5⟩
  | umin =>
    obtain ⟨s', h1, h2, h3, h4, h5⟩ := umaxSeq_run (s := s) .l hE (hl rfl)
    exact ⟨s', h1, by rw [h2, h3]; exact sel_umin _ _ _ _, h4, h5⟩
  | min =>
    obtain ⟨s', h1, h2, h3, h4, h5⟩ := maxSeq_run (s := s) .l hE (hl rfl)
    exact ⟨s', h1, by rw [h2, h3]; exact sel_min _ _ _ _, h4, h5⟩

theorem body2_run {E : Env} (hE : E.Ok) (o : Op2) (s : St)
    (hz : o = .neg → E.cfg.feat.distinct = true → s.reg .zero = 0) :
    ∃ s', Does E.cpu (body2 E.cfg o) (fun s => fn2 o (join (s.reg .r0) (s.reg .r1))) [.r12, .r13] s s' := by
  cases o with
  | not =>
    obtain ⟨s', h1, h2, h3, h4, h5⟩ := notSeq_run E.cpu .r1 .r0 s
    exact ⟨s', h1, by rw [h2, h3]; exact BitVec.not_append.symm, h4, h5⟩
  | neg =>
    have e : ∃ s', execs E.cpu (body2 E.cfg .neg) s = some s' ∧
        s'.reg .r13 = Arm.addc 0 (~~~s.reg .r1) true ∧
        s'.reg .r12 = Arm.addc 0 (~~~s.reg .r0) (carry 0 (~~~s.reg .r1) true) ∧
        (∀ q, q ∉ [Reg.r12, .r13] → s'.reg q = s.reg q) ∧ s'.mask = s.mask := by
      let s2 : St := s.alu .sl .r13 0 (s.reg .r1)
      let s3 : St := s2.set .r12 0
      let s4 : St := { s3.set .r12 (Arm.addc (s3.reg .r12) (~~~s3.reg .r0) s3.carry) with
        cc := ccCarry (carry (s3.reg .r12) (~~~s3.reg .r0) s3.carry) (Arm.addc (s3.reg .r12) (~~~s3.reg .r0) s3.carry) }
      have h3 : execs E.cpu [.lghi .r12 0, .slbgr .r12 .r0] s2 = some s4 := by
        simp only [execs, Ins.exec, Option.bind_some, s4, s3]
      have hcar : s3.carry = carry 0 (~~~s.reg .r1) true := carry_cc _ _
      refine ⟨s4, ?_, rfl, ?_, ?_, rfl⟩
      · cases hd : E.cfg.feat.distinct with
        | true =>
          have : execs E.cpu [.alu3 .sl .r13 .zero .r1] s = some s2 := by
            simp only [execs, Ins.exec, hE.distinct hd, if_true, Option.bind_some, hz rfl hd, s2, St.alu]
          simp only [body2, hd, if_true]
          exact execs_append (a := [.alu3 .sl .r13 .zero .r1]) this h3
        | false =>
          have : execs E.cpu [.lghi .r13 0, .alu2 .sl .r13 .r1] s = some s2 := by
            simp only [execs, Ins.exec, Option.bind_some, s2, St.alu, set_set]
            rfl
          simp only [body2, hd, Bool.false_eq_true, if_false]
          exact execs_append (a := [.lghi .r13 0, .alu2 .sl .r13 .r1]) this h3
      · show Arm.addc _ _ s3.carry = _
        rw [hcar]; rfl
      · intro q hq
        simp only [List.mem_cons, List.not_mem_nil, or_false, not_or] at hq
        simp only [s4, s3, s2, St.alu, reg_set, if_neg hq.1, if_neg hq.2]
    obtain ⟨s', h1, h2, h3, h4, h5⟩ := e
    exact ⟨s', h1, by rw [h2, h3]; exact neg_halves (s.reg .r1) (s.reg .r0), h4, h5⟩

end Verif.S390x
