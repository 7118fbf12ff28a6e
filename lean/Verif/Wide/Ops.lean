import Verif.Spec.Wide
import Verif.Int.Sim
import Verif.Lf.Access
/-!
# The operations on an integer of any width: arithmetic facts shared by the 64-bit back ends
-/
set_option autoImplicit false
namespace Verif.Wide
open Verif.Int Verif.Lf

variable {n : Nat}

/-- Values of the operations with an argument, in the forms the closures of `riscv32.rs` and `arm_linux.rs`
have. -/
theorem rmw3_sem (p : Op3) (v x y : BitVec n)
    (h : y = match p with
      | .add => x + v
      | .sub => x - v
      | .and => x &&& v
      | .nand => ~~~(x &&& v)
      | .or => x ||| v
      | .xor => x ^^^ v
      | .max => if v.slt x then x else v
      | .umax => if v.ult x then x else v
      | .min => if v.slt x then v else x
      | .umin => if v.ult x then v else x) : (WOp.rmw3 p v).Sem x y (.val x) := by
  subst h
  cases p with
  | add => exact ⟨bin_post .add x v, rfl⟩
  | sub => exact ⟨bin_post .sub x v, rfl⟩
  | and => exact ⟨bin_post .and x v, rfl⟩
  | or => exact ⟨bin_post .or x v, rfl⟩
  | xor => exact ⟨bin_post .xor x v, rfl⟩
  | nand => exact ⟨binF_post false .nand x v, rfl⟩
  | max =>
    refine ⟨?_, rfl⟩
    simp only [BinF.Post]
    by_cases h : v.slt x = true
    · rw [if_pos h]; have := (slt_iff v x).1 h; omega
    · rw [if_neg h]; have := mt (slt_iff v x).2 h; omega
  | umax =>
    refine ⟨?_, rfl⟩
    simp only [BinF.Post]
    by_cases h : v.ult x = true
    · rw [if_pos h]; have := (ult_iff v x).1 h; omega
    · rw [if_neg h]; have := mt (ult_iff v x).2 h; omega
  | min =>
    refine ⟨?_, rfl⟩
    simp only [BinF.Post]
    by_cases h : v.slt x = true
    · rw [if_pos h]; have := (slt_iff v x).1 h; omega
    · rw [if_neg h]; have := mt (slt_iff v x).2 h; omega
  | umin =>
    refine ⟨?_, rfl⟩
    simp only [BinF.Post]
    by_cases h : v.ult x = true
    · rw [if_pos h]; have := (ult_iff v x).1 h; omega
    · rw [if_neg h]; have := mt (ult_iff v x).2 h; omega

theorem rmw2_sem (p : Op2) (x : BitVec n) :
    (WOp.rmw2 p).Sem x (match p with | .not => ~~~x | .neg => -x) (.val x) := by
  cases p
  · exact ⟨not_post x, rfl⟩
  · exact ⟨neg_post x, rfl⟩

theorem sem_cas {x x' old new : BitVec n} {r : Res (BitVec n)}
    (h : (Acc.op (.cas old new .relaxed .relaxed)).sem x x' r) :
    (x = old ∧ x' = new ∧ r = .ok x) ∨ (x ≠ old ∧ x' = x ∧ r = .err x) := by
  simp only [Acc.sem, Op.onCell, Op.ordOk] at h
  by_cases hx : x = old
  · simp [hx] at h; exact Or.inl ⟨hx, h.1, by rw [h.2, hx]⟩
  · simp [hx] at h; exact Or.inr ⟨hx, h⟩

end Verif.Wide
