import Verif.Spec.Ppc
import Verif.Arm.Arith
/-!
# The register sequences of the PowerPC64 back end compute the 128-bit operations (C39)
-/
set_option autoImplicit false
namespace Verif.Ppc
open Verif.X86 (fn3 fn2 toNat_join toInt_join join_halves hi_join lo_join hi lo)
open Verif.Wide
open Verif.Arm (add_halves sub_halves neg_halves)

theorem join_hi_lo (x : BitVec 128) : join (hi x) (lo x) = x := join_halves x

/-- Run register-only instructions. -/
def execs (r0 : Option Reg) : List Ins → St → Option St
  | [], s => some s
  | i :: is, s => (i.exec r0 s).bind (execs r0 is)

/-- The two-step comparison: greater high word, or equal high words and greater low word. -/
theorem ult_split (a b c d : BitVec 64) :
    (a ++ b).ult (c ++ d) = (a.ult c || (a == c && b.ult d)) := by
  have e : (a == c) = decide (a.toNat = c.toNat) := by
    rw [Bool.eq_iff_iff]; simp [BitVec.toNat_inj]
  rw [e]
  simp only [BitVec.ult, toNat_join]
  have := a.isLt; have := b.isLt; have := c.isLt; have := d.isLt
  rw [Bool.eq_iff_iff]
  simp only [decide_eq_true_eq, Bool.or_eq_true, Bool.and_eq_true]
  omega

theorem slt_split (a b c d : BitVec 64) :
    (a ++ b).slt (c ++ d) = (a.slt c || (a == c && b.ult d)) := by
  have e : (a == c) = decide (a.toInt = c.toInt) := by
    rw [Bool.eq_iff_iff]; simp [BitVec.toInt_inj]
  rw [e]
  simp only [BitVec.slt, BitVec.ult, toInt_join]
  have := b.isLt; have := d.isLt
  rw [Bool.eq_iff_iff]
  simp only [decide_eq_true_eq, Bool.or_eq_true, Bool.and_eq_true]
  omega

/-- What a body must do. -/
structure Does (r0 : Option Reg) (body : List Ins) (f : St → BitVec 128) (cr1 xer : Bool) (s s' : St) : Prop where
  run : execs r0 body s = some s'
  val : join (s'.reg .r8) (s'.reg .r9) = f s
  frame : ∀ q, q ≠ .r8 → q ≠ .r9 → s'.reg q = s.reg q
  cr1 : cr1 = false → s'.cr1 = s.cr1
  rest : s'.crRest = s.crRest
  xer : xer = false → s'.ca = s.ca
  so : s'.so = s.so

/-- Registers not written by a body. -/
macro "body_frame" : tactic => `(tactic|
  (intro q h1 h2; simp only [St.set, h1, h2, if_false]))

theorem ra0_ne {r0 : Option Reg} {q : Reg} (h : r0 ≠ some q) (s : St) : s.ra0 r0 q = s.reg q := if_neg h

/-- Selecting one of two values word by word. -/
theorem sel_words (xh xl vh vl : BitVec 64) (c l b : Bool) (hb : b = (c || (xh == vh && l)))
    (h0 : xh = vh → c = false) :
    (if c then xh else vh) ++ (if xh == vh then (if l then xl else vl) else (if c then xl else vl)) =
    if b then xh ++ xl else vh ++ vl := by
  rw [hb]
  by_cases h : xh = vh
  · rw [h0 h]; subst h
    simp only [beq_self_eq_true, Bool.false_or, Bool.true_and, if_true, Bool.false_eq_true, if_false]
    split <;> rfl
  · have e2 : (xh == vh) = false := by simpa using h
    simp only [e2, Bool.false_and, Bool.or_false, Bool.false_eq_true, if_false]
    split <;> rfl

theorem ult_self {a b : BitVec 64} (h : a = b) : a.ult b = false := by subst h; simp [BitVec.ult]
theorem slt_self {a b : BitVec 64} (h : a = b) : a.slt b = false := by subst h; simp [BitVec.slt]

theorem not_ult (a b : BitVec 128) (h : a ≠ b) : a.ult b = !b.ult a := by
  have : a.toNat ≠ b.toNat := fun e => h (BitVec.eq_of_toNat_eq e)
  simp only [BitVec.ult]
  rw [← decide_not]
  apply decide_eq_decide.2
  omega

theorem not_slt (a b : BitVec 128) (h : a ≠ b) : a.slt b = !b.slt a := by
  have : a.toInt ≠ b.toInt := fun e => h (BitVec.eq_of_toInt_eq e)
  simp only [BitVec.slt]
  rw [← decide_not]
  apply decide_eq_decide.2
  omega

theorem umin_alt (v x : BitVec 128) : fn3 .umin v x = if x.ult v then x else v := by
  rw [fn3]
  by_cases h : v = x
  · subst h; simp
  · rw [not_ult v x h]; cases x.ult v <;> rfl

theorem min_alt (v x : BitVec 128) : fn3 .min v x = if x.slt v then x else v := by
  rw [fn3]
  by_cases h : v = x
  · subst h; simp
  · rw [not_slt v x h]; cases x.slt v <;> rfl

section
variable {r0 : Option Reg} (h6 : r0 ≠ some .r6) (h7 : r0 ≠ some .r7) (h9 : r0 ≠ some .r9)
include h6 h7 h9

theorem body3_run (o : Op3) (s : St) :
    ∃ s', Does r0 (body3 o) (fun s => fn3 o (join (s.reg .valHi) (s.reg .valLo)) (join (s.reg .r6) (s.reg .r7)))
      (Block.rmw3 o ⟨none, none⟩).clobCr1 (Block.rmw3 o ⟨none, none⟩).clobXer s s' := by
  cases o with
  | add =>
    refine ⟨_, rfl, ?_, by body_frame, fun _ => rfl, rfl, nofun, rfl⟩
    exact (add_halves _ _ _ _).trans (BitVec.add_comm _ _)
  | sub => exact ⟨_, rfl, sub_halves _ _ _ _, by body_frame, fun _ => rfl, rfl, nofun, rfl⟩
  | and => exact ⟨_, rfl, BitVec.and_append.symm.trans (BitVec.and_comm _ _), by body_frame, fun _ => rfl, rfl, fun _ => rfl, rfl⟩
  | or => exact ⟨_, rfl, BitVec.or_append.symm.trans (BitVec.or_comm _ _), by body_frame, fun _ => rfl, rfl, fun _ => rfl, rfl⟩
  | xor => exact ⟨_, rfl, BitVec.xor_append.symm.trans (BitVec.xor_comm _ _), by body_frame, fun _ => rfl, rfl, fun _ => rfl, rfl⟩
  | nand => exact ⟨_, rfl, (BitVec.not_append.symm).trans (congrArg (~~~ ·) (BitVec.and_append.symm.trans (BitVec.and_comm _ _))), by body_frame, fun _ => rfl, rfl, fun _ => rfl, rfl⟩
  | umax =>
    refine ⟨_, rfl, ?_, by body_frame, fun _ => rfl, rfl, fun _ => rfl, rfl⟩
    simp only [St.ra0, h6, h7, h9, if_false]
    refine sel_words _ _ _ _ _ _ _ ((ult_split _ _ _ _).trans ?_) (fun h => ult_self h.symm)
    rw [BEq.comm]; rfl
  | max =>
    refine ⟨_, rfl, ?_, by body_frame, nofun, rfl, fun _ => rfl, rfl⟩
    simp only [St.ra0, h6, h7, h9, if_false]
    refine sel_words _ _ _ _ _ _ _ ((slt_split _ _ _ _).trans ?_) (fun h => slt_self h.symm)
    rw [BEq.comm]; rfl
  | umin =>
    refine ⟨_, rfl, ?_, by body_frame, fun _ => rfl, rfl, fun _ => rfl, rfl⟩
    simp only [St.ra0, h6, h7, h9, if_false]
    rw [umin_alt]
    exact sel_words _ _ _ _ _ _ _ (ult_split _ _ _ _) ult_self
  | min =>
    refine ⟨_, rfl, ?_, by body_frame, nofun, rfl, fun _ => rfl, rfl⟩
    simp only [St.ra0, h6, h7, h9, if_false]
    rw [min_alt]
    exact sel_words _ _ _ _ _ _ _ (slt_split _ _ _ _) slt_self

omit h6 h7 h9 in
theorem bodyNeg_run (old : Bool) (s : St) (hz : old = true → s.reg .zero = 0) :
    ∃ s', Does r0 (bodyNeg old) (fun s => fn2 .neg (join (s.reg .r6) (s.reg .r7))) false true s s' := by
  cases old with
  | false => exact ⟨_, rfl, neg_halves (s.reg .r7) (s.reg .r6), by body_frame, fun _ => rfl, rfl, nofun, rfl⟩
  | true =>
    refine ⟨_, rfl, ?_, by body_frame, fun _ => rfl, rfl, nofun, rfl⟩
    refine Eq.trans ?_ (neg_halves (s.reg .r7) (s.reg .r6))
    rw [← hz rfl]
    rfl

end

/-! ## The condition register -/

theorem testCr0Eq_cr (s : St) : testCr0Eq (s.cr.setWidth 64) = s.cr0.eq := by
  have h1 : (0x20000000 : BitVec 64) = BitVec.twoPow 64 29 := by decide
  have h2 : (s.cr.setWidth 64).getLsbD 29 = s.cr0.eq := by
    simp only [BitVec.getLsbD_setWidth, St.cr, Field.bits, BitVec.getLsbD_append]
    cases s.cr0.eq <;> rfl
  rw [testCr0Eq, h1, BitVec.and_twoPow, h2]
  cases s.cr0.eq <;> decide

end Verif.Ppc
