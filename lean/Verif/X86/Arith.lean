import Verif.Spec.X86
import Verif.Int.Sim
/-!
# The register sequences compute the 128-bit operations (C28)
-/
namespace Verif.X86
open Verif.Int

theorem toNat_join (h l : BitVec 64) : (h ++ l).toNat = h.toNat * 2 ^ 64 + l.toNat := by
  rw [BitVec.toNat_append, Nat.shiftLeft_eq, Nat.mul_comm, ← Nat.two_pow_add_eq_or_of_lt l.isLt]

theorem join_halves (x : BitVec 128) : hi x ++ lo x = x := by
  apply BitVec.eq_of_toNat_eq
  rw [toNat_join]
  simp only [hi, lo, BitVec.extractLsb'_toNat, Nat.shiftRight_eq_div_pow]
  have := x.isLt
  omega

theorem hi_join (h l : BitVec 64) : hi (h ++ l) = h := by
  apply BitVec.eq_of_toNat_eq
  simp only [hi, BitVec.extractLsb'_toNat, Nat.shiftRight_eq_div_pow, toNat_join]
  have := h.isLt; have := l.isLt
  omega

theorem lo_join (h l : BitVec 64) : lo (h ++ l) = l := by
  apply BitVec.eq_of_toNat_eq
  simp only [lo, BitVec.extractLsb'_toNat, Nat.shiftRight_eq_div_pow, toNat_join]
  have := h.isLt; have := l.isLt
  omega

theorem bit_toNat (c : Bool) : (bit c).toNat = c.toNat := by cases c <;> rfl

theorem decide_toNat (p : Prop) [Decidable p] : (decide p).toNat = if p then 1 else 0 := by
  by_cases h : p <;> simp [h]

theorem add_halves (a b c d : BitVec 64) :
    (b + d + bit (addFlags a c false).cf) ++ (a + c + bit false) = (b ++ a) + (d ++ c) := by
  apply BitVec.eq_of_toNat_eq
  simp only [toNat_join, BitVec.toNat_add, bit_toNat, addFlags, decide_toNat, Bool.toNat_false]
  have := a.isLt; have := b.isLt; have := c.isLt; have := d.isLt
  split <;> omega

theorem sub_halves (a b c d : BitVec 64) :
    (b - d - bit (subFlags a c false).cf) ++ (a - c - bit false) = (b ++ a) - (d ++ c) := by
  apply BitVec.eq_of_toNat_eq
  simp only [toNat_join, BitVec.toNat_sub, bit_toNat, subFlags, decide_toNat, Bool.toNat_false]
  have := a.isLt; have := b.isLt; have := c.isLt; have := d.isLt
  split <;> omega

theorem and_halves (a b c d : BitVec 64) : (b &&& d) ++ (a &&& c) = (b ++ a) &&& (d ++ c) :=
  BitVec.and_append.symm

theorem or_halves (a b c d : BitVec 64) : (b ||| d) ++ (a ||| c) = (b ++ a) ||| (d ++ c) :=
  BitVec.or_append.symm

theorem xor_halves (a b c d : BitVec 64) : (b ^^^ d) ++ (a ^^^ c) = (b ++ a) ^^^ (d ++ c) :=
  BitVec.xor_append.symm

theorem not_halves (a b : BitVec 64) : (~~~b) ++ (~~~a) = ~~~(b ++ a) :=
  BitVec.not_append.symm

/-- CF of the two-word comparison: 128-bit unsigned less-than. -/
theorem ult_halves (a b c d : BitVec 64) :
    (subFlags d b (subFlags c a false).cf).cf = (d ++ c).ult (b ++ a) := by
  simp only [subFlags, BitVec.ult, toNat_join, decide_toNat, Bool.toNat_false]
  have := a.isLt; have := b.isLt; have := c.isLt; have := d.isLt
  apply decide_eq_decide.2
  split <;> omega

theorem toInt_join (h l : BitVec 64) : (h ++ l).toInt = h.toInt * 2 ^ 64 + l.toNat := by
  have e := toNat_join h l
  rw [BitVec.toInt_eq_toNat_cond, BitVec.toInt_eq_toNat_cond, e]
  have := h.isLt; have := l.isLt
  split <;> split <;> omega

/-- SF ≠ OF after a subtraction with borrow says that the exact difference is negative. -/
theorem sf_ne_of (a b : BitVec 64) (c : Bool) :
    ((subFlags a b c).sf != (subFlags a b c).of) = decide (a.toInt - b.toInt - c.toNat < 0) := by
  have hr : (a - b - bit c).toInt = ((a.toInt - b.toInt - c.toNat : Int)).bmod (2 ^ 64) := by
    rw [BitVec.toInt_sub, BitVec.toInt_sub]
    have : (bit c).toInt = c.toNat := by cases c <;> rfl
    rw [this, Int.bmod_sub_bmod]
  simp only [subFlags, BitVec.msb_eq_toInt]
  have ha := BitVec.toInt_lt (x := a); have ha' := BitVec.le_toInt (x := a)
  have hb := BitVec.toInt_lt (x := b); have hb' := BitVec.le_toInt (x := b)
  have hc : c.toNat ≤ 1 := by cases c <;> decide
  generalize (a - b - bit c).toInt = r at *
  generalize a.toInt = x at *
  generalize b.toInt = y at *
  generalize c.toNat = k at *
  simp only [Int.bmod] at hr
  by_cases h1 : r < 0 <;> by_cases h2 : r = x - y - k <;>
    simp only [h1, h2, decide_true, decide_false, ne_eq, not_true_eq_false, not_false_eq_true,
      bne_self_eq_false, Bool.bne_true, Bool.bne_false, Bool.not_true, Bool.not_false] <;>
    first
    | (symm; apply decide_eq_true; split at hr <;> omega)
    | (symm; apply decide_eq_false; split at hr <;> omega)

/-- The signed condition of the two-word comparison: 128-bit signed less-than. -/
theorem slt_halves (a b c d : BitVec 64) :
    Cond.holds (subFlags d b (subFlags c a false).cf) .l = (d ++ c).slt (b ++ a) := by
  simp only [Cond.holds]
  rw [sf_ne_of]
  simp only [BitVec.slt, toInt_join, subFlags, decide_toNat, Bool.toNat_false]
  have := a.isLt; have := c.isLt
  apply decide_eq_decide.2
  split <;> omega

theorem neg_halves (a b : BitVec 64) :
    (0 - b - bit (subFlags 0 a false).cf) ++ (0 - a - bit false) = -(b ++ a) := by
  have h := sub_halves 0 0 a b
  have e : (0 : BitVec 64) ++ (0 : BitVec 64) = (0 : BitVec (64 + 64)) := rfl
  rw [h, e]
  simp

/-- The 128-bit function of a three-argument operation. -/
def fn3 (o : Op3) (v x : BitVec 128) : BitVec 128 :=
  match o with
  | .add => Bin.fn .add v x
  | .sub => Bin.fn .sub v x
  | .and => Bin.fn .and v x
  | .nand => BinF.fn false .nand v x
  | .or => Bin.fn .or v x
  | .xor => Bin.fn .xor v x
  | .max => if v.slt x then x else v
  | .umax => if v.ult x then x else v
  | .min => if v.slt x then v else x
  | .umin => if v.ult x then v else x

/-- The 128-bit function of a two-argument operation. -/
def fn2 (o : Op2) (x : BitVec 128) : BitVec 128 :=
  match o with
  | .not => ~~~x
  | .neg => -x

theorem set_pair {r : Regs} {b c : BitVec 64} {y : BitVec 128} (h : c ++ b = y) :
    { r with rbx := b, rcx := c } = { r with rbx := lo y, rcx := hi y } := by
  subst h
  rw [lo_join, hi_join]

theorem ite_regs {p : Bool} {r : Regs} {b b' c c' : BitVec 64} :
    (if p = true then { r with rbx := b, rcx := c } else { r with rbx := b', rcx := c' } : Regs) =
      { r with rbx := if p then b else b', rcx := if p then c else c' } := by
  cases p <;> rfl

/-- **The register sequences of `atomic_rmw_cas_3!`**: `rcx:rbx` is the operation of `rdx:rax` and
`r9:r8`, nothing else changes. -/
theorem body3_run (o : Op3) (r : Regs) (f : Flags) :
    ∃ f', runBlock (body3 o) (r, f) = some
      ({ r with rbx := lo (fn3 o (r.r9 ++ r.r8) (r.rdx ++ r.rax)),
                rcx := hi (fn3 o (r.r9 ++ r.r8) (r.rdx ++ r.rax)) }, f') := by
  cases o with
  | add => exact ⟨_, congrArg some (Prod.ext (set_pair (add_halves _ _ _ _)) rfl)⟩
  | sub => exact ⟨_, congrArg some (Prod.ext (set_pair (sub_halves _ _ _ _)) rfl)⟩
  | and => exact ⟨_, congrArg some (Prod.ext (set_pair (and_halves _ _ _ _)) rfl)⟩
  | or => exact ⟨_, congrArg some (Prod.ext (set_pair (or_halves _ _ _ _)) rfl)⟩
  | xor => exact ⟨_, congrArg some (Prod.ext (set_pair (xor_halves _ _ _ _)) rfl)⟩
  | nand =>
    refine ⟨_, congrArg some (Prod.ext (set_pair (r := r)
      (b := ~~~(r.rax &&& r.r8)) (c := ~~~(r.rdx &&& r.r9)) ?_) rfl)⟩
    rw [not_halves, and_halves]; rfl
  | max =>
    have h := slt_halves r.rax r.rdx r.r8 r.r9
    simp only [body3, runBlock, Ins.exec, Regs.get, Regs.set, Option.bind_some, h, fn3]
    cases hc : (r.r9 ++ r.r8).slt (r.rdx ++ r.rax) <;>
      simp [lo_join, hi_join]
  | umax =>
    have h := ult_halves r.rax r.rdx r.r8 r.r9
    simp only [body3, runBlock, Ins.exec, Regs.get, Regs.set, Option.bind_some, Cond.holds, h, fn3]
    cases hc : (r.r9 ++ r.r8).ult (r.rdx ++ r.rax) <;>
      simp [lo_join, hi_join]
  | min =>
    have h := slt_halves r.rax r.rdx r.r8 r.r9
    have h' : Cond.holds (subFlags r.r9 r.rdx (subFlags r.r8 r.rax false).cf) .ge =
        !(r.r9 ++ r.r8).slt (r.rdx ++ r.rax) := by
      rw [← h]; simp only [Cond.holds]
      cases (subFlags r.r9 r.rdx (subFlags r.r8 r.rax false).cf).sf <;>
        cases (subFlags r.r9 r.rdx (subFlags r.r8 r.rax false).cf).of <;> rfl
    simp only [body3, runBlock, Ins.exec, Regs.get, Regs.set, Option.bind_some, h', fn3]
    cases hc : (r.r9 ++ r.r8).slt (r.rdx ++ r.rax) <;>
      simp [lo_join, hi_join]
  | umin =>
    have h := ult_halves r.rax r.rdx r.r8 r.r9
    simp only [body3, runBlock, Ins.exec, Regs.get, Regs.set, Option.bind_some, Cond.holds, h, fn3]
    cases hc : (r.r9 ++ r.r8).ult (r.rdx ++ r.rax) <;>
      simp [lo_join, hi_join]

/-- **The register sequences of `atomic_rmw_cas_2!`.** -/
theorem body2_run (o : Op2) (r : Regs) (f : Flags) :
    ∃ f', runBlock (body2 o) (r, f) = some
      ({ r with rbx := lo (fn2 o (r.rdx ++ r.rax)), rcx := hi (fn2 o (r.rdx ++ r.rax)) }, f') := by
  cases o with
  | not => exact ⟨_, congrArg some (Prod.ext (set_pair (not_halves _ _)) rfl)⟩
  | neg => exact ⟨_, congrArg some (Prod.ext (set_pair (neg_halves _ _)) rfl)⟩

/-- The functions are the specified operations. -/
theorem fn3_sem (o : Op3) (v x : BitVec 128) : (Block.rmw3 o v).Sem x (fn3 o v x) (.val x) := by
  cases o with
  | add => exact ⟨bin_post .add x v, rfl⟩
  | sub => exact ⟨bin_post .sub x v, rfl⟩
  | and => exact ⟨bin_post .and x v, rfl⟩
  | or => exact ⟨bin_post .or x v, rfl⟩
  | xor => exact ⟨bin_post .xor x v, rfl⟩
  | nand => exact ⟨binF_post false .nand x v, rfl⟩
  | max =>
    refine ⟨?_, rfl⟩
    simp only [BinF.Post, fn3]
    by_cases h : v.slt x = true
    · rw [if_pos h]; have := (slt_iff v x).1 h; omega
    · rw [if_neg h]; have := mt (slt_iff v x).2 h; omega
  | umax =>
    refine ⟨?_, rfl⟩
    simp only [BinF.Post, fn3]
    by_cases h : v.ult x = true
    · rw [if_pos h]; have := (ult_iff v x).1 h; omega
    · rw [if_neg h]; have := mt (ult_iff v x).2 h; omega
  | min =>
    refine ⟨?_, rfl⟩
    simp only [BinF.Post, fn3]
    by_cases h : v.slt x = true
    · rw [if_pos h]; have := (slt_iff v x).1 h; omega
    · rw [if_neg h]; have := mt (slt_iff v x).2 h; omega
  | umin =>
    refine ⟨?_, rfl⟩
    simp only [BinF.Post, fn3]
    by_cases h : v.ult x = true
    · rw [if_pos h]; have := (ult_iff v x).1 h; omega
    · rw [if_neg h]; have := mt (ult_iff v x).2 h; omega

theorem fn2_sem (o : Op2) (x : BitVec 128) : (Block.rmw2 o).Sem x (fn2 o x) (.val x) := by
  cases o
  · exact ⟨not_post x, rfl⟩
  · exact ⟨neg_post x, rfl⟩

end Verif.X86
