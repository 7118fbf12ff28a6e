import Verif.Spec.Arm
import Verif.X86.Arith
/-!
# The register sequences of the AArch64 back end compute the 128-bit operations (C37)
-/
set_option autoImplicit false
namespace Verif.Arm
open Verif.X86 (fn3 fn2 toNat_join toInt_join join_halves hi_join lo_join decide_toNat hi lo)
open Verif.Wide

theorem bit_toNat (c : Bool) : (bit c).toNat = c.toNat := by cases c <;> rfl

theorem word_join (e : Endian) (x : BitVec 128) : join e (word e x false) (word e x true) = x := by
  cases e <;> exact join_halves x

theorem word_false (e : Endian) (a b : BitVec 64) : word e (join e a b) false = a := by
  cases e
  · exact lo_join b a
  · exact hi_join a b

theorem word_true (e : Endian) (a b : BitVec 64) : word e (join e a b) true = b := by
  cases e
  · exact hi_join b a
  · exact lo_join a b

/-- Carry out of `AddWithCarry`. -/
def carry (x y : BitVec 64) (c : Bool) : Bool := decide (2 ^ 64 ≤ x.toNat + y.toNat + c.toNat)

theorem add_halves (a b c d : BitVec 64) :
    addc b d (carry a c false) ++ addc a c false = (b ++ a) + (d ++ c) := by
  apply BitVec.eq_of_toNat_eq
  simp only [addc, carry, toNat_join, BitVec.toNat_add, bit_toNat, decide_toNat, Bool.toNat_false]
  have := a.isLt; have := b.isLt; have := c.isLt; have := d.isLt
  split <;> omega

theorem sub_halves (a b c d : BitVec 64) :
    addc b (~~~d) (carry a (~~~c) true) ++ addc a (~~~c) true = (b ++ a) - (d ++ c) := by
  apply BitVec.eq_of_toNat_eq
  simp only [addc, carry, toNat_join, BitVec.toNat_add, BitVec.toNat_sub, BitVec.toNat_not, bit_toNat,
    decide_toNat, Bool.toNat_true]
  have := a.isLt; have := b.isLt; have := c.isLt; have := d.isLt
  split <;> omega

theorem neg_halves (a b : BitVec 64) :
    addc 0 (~~~b) (carry 0 (~~~a) true) ++ addc 0 (~~~a) true = -(b ++ a) := by
  have h := sub_halves 0 0 a b
  have e : (0 : BitVec 64) ++ (0 : BitVec 64) = (0 : BitVec (64 + 64)) := rfl
  rw [h, e]
  simp

/-- The carry of the two-word comparison: 128-bit unsigned not-less-than. -/
theorem ult_halves (a b c d : BitVec 64) :
    carry d (~~~b) (carry c (~~~a) true) = !(d ++ c).ult (b ++ a) := by
  simp only [carry, BitVec.ult, toNat_join, BitVec.toNat_not, decide_toNat, Bool.toNat_true]
  have := a.isLt; have := b.isLt; have := c.isLt; have := d.isLt
  rw [← decide_not]
  apply decide_eq_decide.2
  split <;> omega

/-- N ≠ V after an addition says that the exact sum is negative. -/
theorem n_ne_v (a b : BitVec 64) (c : Bool) :
    ((addc a b c).msb != decide ((addc a b c).toInt ≠ a.toInt + b.toInt + c.toNat)) =
      decide (a.toInt + b.toInt + c.toNat < 0) := by
  have hr : (addc a b c).toInt = ((a.toInt + b.toInt + c.toNat : Int)).bmod (2 ^ 64) := by
    rw [addc, BitVec.toInt_add, BitVec.toInt_add]
    have : (bit c).toInt = c.toNat := by cases c <;> rfl
    rw [this, Int.bmod_add_bmod]
  simp only [BitVec.msb_eq_toInt]
  have ha := BitVec.toInt_lt (x := a); have ha' := BitVec.le_toInt (x := a)
  have hb := BitVec.toInt_lt (x := b); have hb' := BitVec.le_toInt (x := b)
  have hc : c.toNat ≤ 1 := by cases c <;> decide
  generalize (addc a b c).toInt = r at *
  generalize a.toInt = x at *
  generalize b.toInt = y at *
  generalize c.toNat = k at *
  simp only [Int.bmod] at hr
  by_cases h1 : r < 0 <;> by_cases h2 : r = x + y + k <;>
    simp only [h1, h2, decide_true, decide_false, ne_eq, not_true_eq_false, not_false_eq_true,
      bne_self_eq_false, Bool.bne_true, Bool.bne_false, Bool.not_true, Bool.not_false] <;>
    first
    | (symm; apply decide_eq_true; split at hr <;> omega)
    | (symm; apply decide_eq_false; split at hr <;> omega)

theorem toInt_not (a : BitVec 64) : (~~~a).toInt = -a.toInt - 1 := by
  rw [BitVec.toInt_eq_toNat_cond, BitVec.toInt_eq_toNat_cond, BitVec.toNat_not]
  have := a.isLt
  split <;> split <;> omega

/-- The signed condition of the two-word comparison: 128-bit signed less-than. -/
theorem slt_halves (a b c d : BitVec 64) :
    ((addc d (~~~b) (carry c (~~~a) true)).msb !=
      decide ((addc d (~~~b) (carry c (~~~a) true)).toInt ≠
        d.toInt + (~~~b).toInt + (carry c (~~~a) true).toNat)) = (d ++ c).slt (b ++ a) := by
  rw [n_ne_v]
  simp only [BitVec.slt, toInt_join, toInt_not, carry, decide_toNat, Bool.toNat_true, BitVec.toNat_not]
  have := a.isLt; have := c.isLt
  apply decide_eq_decide.2
  split <;> omega

/-- Run register-only instructions. -/
def execs : List Ins → St → Option St
  | [], s => some s
  | i :: is, s => (i.exec s).bind (execs is)

/-- The flags of two states agree. -/
def SameFlags (s s' : St) : Prop := s'.n = s.n ∧ s'.z = s.z ∧ s'.c = s.c ∧ s'.v = s.v

theorem join_ite (e : Endian) (p : Bool) (a b c d : BitVec 64) :
    join e (if p then a else c) (if p then b else d) = if p then join e a b else join e c d := by
  cases p <;> rfl

/-- Which three-argument bodies leave the flags alone. -/
def keeps3 : Op3 → Bool
  | .and | .nand | .or | .xor => true
  | _ => false

/-- Which two-argument bodies leave the flags alone. -/
def keeps2 : Op2 → Bool
  | .not => true
  | .neg => false

/-- Reading a register not written to. -/
theorem get_set (s : St) (q p : Reg) (x : BitVec 64) :
    (s.set q x).get p = if p = .xzr then 0 else if p = q then x else s.get p := by
  simp only [St.get, St.set]
  split <;> rfl

theorem get_addFlags (s : St) (x y : BitVec 64) (c : Bool) (p : Reg) :
    (s.addFlags x y c).get p = s.get p := rfl

/-- The three-word select used by `max`, `min`, `umax`, `umin`. -/
theorem fn3_max (v x : BitVec 128) : fn3 .max v x = if v.slt x then x else v := rfl
theorem fn3_umax (v x : BitVec 128) : fn3 .umax v x = if v.ult x then x else v := rfl
theorem fn3_min (v x : BitVec 128) : fn3 .min v x = if !v.slt x then x else v := by
  rw [fn3]; cases v.slt x <;> rfl
theorem fn3_umin (v x : BitVec 128) : fn3 .umin v x = if !v.ult x then x else v := by
  rw [fn3]; cases v.ult x <;> rfl

theorem beq_of_bne (a b : Bool) : (a == b) = !(a != b) := by cases a <;> cases b <;> rfl

theorem ite_cond {p q : Bool} {α : Type} {a b : α} (h : p = q) :
    (if p then a else b) = if q then a else b := by rw [h]

/-- Registers not written by a body. -/
macro "body_frame" : tactic => `(tactic|
  (intro q h1 h2; simp only [St.get, St.set, St.addFlags, h1, h2, if_false, ite_self]
   try (cases q <;> rfl)))

/-- Flags not written by a body. -/
macro "body_flags" : tactic => `(tactic|
  (intro h; first | exact ⟨rfl, rfl, rfl, rfl⟩ | exact absurd h (by decide)))

theorem bodyLx3_run (e : Endian) (o : Op3) (s : St) :
    ∃ s', execs (bodyLx3 e o) s = some s' ∧
      join e (s'.get .newLo) (s'.get .newHi) =
        fn3 o (join e (s.get .valLo) (s.get .valHi)) (join e (s.get .prevLo) (s.get .prevHi)) ∧
      (∀ q, q ≠ .newLo → q ≠ .newHi → s'.get q = s.get q) ∧
      (keeps3 o = true → SameFlags s s') := by
  cases o with
  | add => cases e <;> exact ⟨_, rfl, add_halves _ _ _ _, by body_frame, by body_flags⟩
  | sub => cases e <;> exact ⟨_, rfl, sub_halves _ _ _ _, by body_frame, by body_flags⟩
  | and => cases e <;> exact ⟨_, rfl, BitVec.and_append.symm, by body_frame, by body_flags⟩
  | or => cases e <;> exact ⟨_, rfl, BitVec.or_append.symm, by body_frame, by body_flags⟩
  | xor => cases e <;> exact ⟨_, rfl, BitVec.xor_append.symm, by body_frame, by body_flags⟩
  | nand => cases e <;> exact ⟨_, rfl, (BitVec.not_append.symm).trans (congrArg (~~~ ·) BitVec.and_append.symm), by body_frame, by body_flags⟩
  | max => cases e <;> exact ⟨_, rfl, (join_ite _ _ _ _ _ _).trans (ite_cond (slt_halves _ _ _ _)), by body_frame, by body_flags⟩
  | umax => cases e <;> exact ⟨_, rfl, (join_ite _ _ _ _ _ _).trans (ite_cond ((congrArg (!·) (ult_halves _ _ _ _)).trans (Bool.not_not _))), by body_frame, by body_flags⟩
  | min => cases e <;> exact ⟨_, rfl, ((join_ite _ _ _ _ _ _).trans (ite_cond ((beq_of_bne _ _).trans (congrArg (!·) (slt_halves _ _ _ _))))).trans (fn3_min _ _).symm, by body_frame, by body_flags⟩
  | umin => cases e <;> exact ⟨_, rfl, ((join_ite _ _ _ _ _ _).trans (ite_cond (ult_halves _ _ _ _))).trans (fn3_umin _ _).symm, by body_frame, by body_flags⟩

theorem bodyCas3_run (e : Endian) (o : Op3) (s : St) :
    ∃ s', execs (bodyCas3 e o) s = some s' ∧
      join e (s'.get .x4) (s'.get .x5) =
        fn3 o (join e (s.get .valLo) (s.get .valHi)) (join e (s.get .x6) (s.get .x7)) ∧
      (∀ q, q ≠ .x4 → q ≠ .x5 → s'.get q = s.get q) := by
  cases o with
  | add => cases e <;> exact ⟨_, rfl, add_halves _ _ _ _, by body_frame⟩
  | sub => cases e <;> exact ⟨_, rfl, sub_halves _ _ _ _, by body_frame⟩
  | and => cases e <;> exact ⟨_, rfl, BitVec.and_append.symm, by body_frame⟩
  | or => cases e <;> exact ⟨_, rfl, BitVec.or_append.symm, by body_frame⟩
  | xor => cases e <;> exact ⟨_, rfl, BitVec.xor_append.symm, by body_frame⟩
  | nand => cases e <;> exact ⟨_, rfl, (BitVec.not_append.symm).trans (congrArg (~~~ ·) BitVec.and_append.symm), by body_frame⟩
  | max => cases e <;> exact ⟨_, rfl, (join_ite _ _ _ _ _ _).trans (ite_cond (slt_halves _ _ _ _)), by body_frame⟩
  | umax => cases e <;> exact ⟨_, rfl, (join_ite _ _ _ _ _ _).trans (ite_cond ((congrArg (!·) (ult_halves _ _ _ _)).trans (Bool.not_not _))), by body_frame⟩
  | min => cases e <;> exact ⟨_, rfl, ((join_ite _ _ _ _ _ _).trans (ite_cond ((beq_of_bne _ _).trans (congrArg (!·) (slt_halves _ _ _ _))))).trans (fn3_min _ _).symm, by body_frame⟩
  | umin => cases e <;> exact ⟨_, rfl, ((join_ite _ _ _ _ _ _).trans (ite_cond (ult_halves _ _ _ _))).trans (fn3_umin _ _).symm, by body_frame⟩

theorem bodyLx2_run (e : Endian) (o : Op2) (s : St) :
    ∃ s', execs (bodyLx2 e o) s = some s' ∧
      join e (s'.get .newLo) (s'.get .newHi) =
        fn2 o (join e (s.get .prevLo) (s.get .prevHi)) ∧
      (∀ q, q ≠ .newLo → q ≠ .newHi → s'.get q = s.get q) ∧
      (keeps2 o = true → SameFlags s s') := by
  cases o with
  | not => cases e <;> exact ⟨_, rfl, BitVec.not_append.symm, by body_frame, by body_flags⟩
  | neg => cases e <;> exact ⟨_, rfl, neg_halves _ _, by body_frame, by body_flags⟩

theorem bodyCas2_run (e : Endian) (o : Op2) (s : St) :
    ∃ s', execs (bodyCas2 e o) s = some s' ∧
      join e (s'.get .x4) (s'.get .x5) =
        fn2 o (join e (s.get .x6) (s.get .x7)) ∧
      (∀ q, q ≠ .x4 → q ≠ .x5 → s'.get q = s.get q) := by
  cases o with
  | not => cases e <;> exact ⟨_, rfl, BitVec.not_append.symm, by body_frame⟩
  | neg => cases e <;> exact ⟨_, rfl, neg_halves _ _, by body_frame⟩

end Verif.Arm
