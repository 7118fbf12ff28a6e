import Verif.Spec.Riscv
import Verif.Wide.Ops
/-!
# The operations of `riscv.rs`: values
-/
set_option autoImplicit false
namespace Verif.Riscv
open Verif.Lf Verif.Object Verif.Wide Verif.Int

variable {L n : Nat}

theorem reg_low (h : n ≤ L) (c : Call L n) (v : BitVec n) : (c.reg v).setWidth n = v := by
  apply BitVec.eq_of_getLsbD_eq
  intro i hi
  simp [Call.reg, hi, show i < L by omega]

theorem ones_low (h : n ≤ L) : (BitVec.allOnes L).setWidth n = BitVec.allOnes n := by
  apply BitVec.eq_of_getLsbD_eq
  intro i hi
  simp [hi, show i < L by omega]

theorem out_val (h : n ≤ L) (x : BitVec n) : out L (.val x) = .val x := by
  simp only [out, Res.val.injEq]
  apply BitVec.eq_of_getLsbD_eq
  intro i hi
  rw [BitVec.getLsbD_setWidth, BitVec.getLsbD_signExtend]
  simp [hi, show i < L by omega]

theorem max_flip (x v : BitVec n) : (if x.slt v then v else x) = if v.slt x then x else v := by
  by_cases h1 : x.slt v = true
  · have h2 : ¬ v.slt x = true := by
      rw [slt_iff] at *; omega
    rw [if_pos h1, if_neg h2]
  · by_cases h2 : v.slt x = true
    · rw [if_neg h1, if_pos h2]
    · rw [if_neg h1, if_neg h2]
      simp only [BitVec.slt, decide_eq_true_eq] at h1 h2
      exact BitVec.eq_of_toInt_eq (by omega)

theorem maxu_flip (x v : BitVec n) : (if x.ult v then v else x) = if v.ult x then x else v := by
  by_cases h1 : x.ult v = true
  · have h2 : ¬ v.ult x = true := by
      rw [ult_iff] at *; omega
    rw [if_pos h1, if_neg h2]
  · by_cases h2 : v.ult x = true
    · rw [if_neg h1, if_pos h2]
    · rw [if_neg h1, if_neg h2]
      simp only [BitVec.ult, decide_eq_true_eq] at h1 h2
      exact BitVec.eq_of_toNat_eq (by omega)

/-- The AMO a call uses, with its operand. -/
theorem amo_sem (h : n ≤ L) (c : Call L n) {k : Amo} {w : BitVec L} {aq rl : Bool}
    {x x' : BitVec n} {v : Res (BitVec n)} (hs : (Ins.amo k aq rl w).acc.sem x x' v)
    (hS : ∀ x, c.meant.Sem x (k.fn x (w.setWidth n)) (.val x)) (hO : c.meant.OrdOk c.ord .relaxed) :
    ∃ r, spec.sem c x x' r ∧ (Stmt.ret (out L v) : Prog L n).Done r := by
  simp [Ins.acc, Acc.sem, Verif.Op.onCell, Verif.Op.ordOk] at hs
  obtain ⟨rfl, rfl⟩ := hs
  exact ⟨.val x, Or.inl ⟨hO, hS x⟩, out_val h x⟩

theorem prog_pending (h : n ≤ L) (c : Call L n) : (prog c).Pending Ins.acc (spec.sem c) := by
  obtain ⟨op, o, sg, up⟩ := c
  cases op with
  | load =>
    cases o
    case release | acqRel => intro x; exact Or.inr ⟨by simp [Call.meant, WOp.OrdOk], rfl, rfl⟩
    all_goals
      intro x x' v hs
      simp [Ins.acc, Acc.sem, Verif.Op.onCell, Verif.Op.ordOk] at hs
      obtain ⟨rfl, rfl⟩ := hs
      exact ⟨.val x', Or.inl ⟨by simp [Call.meant, WOp.OrdOk], rfl, rfl⟩, out_val h x'⟩
  | store w =>
    cases o
    case acquire | acqRel => intro x; exact Or.inr ⟨by simp [Call.meant, WOp.OrdOk], rfl, rfl⟩
    all_goals
      intro x x' v hs
      simp [Ins.acc, Acc.sem, Verif.Op.onCell, Verif.Op.ordOk] at hs
      obtain ⟨rfl, rfl⟩ := hs
      exact ⟨.unit, Or.inl ⟨by simp [Call.meant, WOp.OrdOk], reg_low h _ w, rfl⟩, rfl⟩
  | swap w =>
    intro x x' v hs
    exact amo_sem h ⟨.swap w, o, sg, up⟩ hs (fun x => ⟨reg_low h _ w, rfl⟩) trivial
  | fetchAdd w =>
    intro x x' v hs
    exact amo_sem h ⟨.fetchAdd w, o, sg, up⟩ hs (fun x => rmw3_sem .add w x _ (by simp only [Amo.fn, reg_low h])) trivial
  | fetchSub w =>
    intro x x' v hs
    exact amo_sem h ⟨.fetchSub w, o, sg, up⟩ hs (fun x => rmw3_sem .sub w x _ (by
      simp only [Amo.fn, reg_low h]; rw [← BitVec.sub_eq_add_neg])) trivial
  | fetchAnd w =>
    intro x x' v hs
    exact amo_sem h ⟨.fetchAnd w, o, sg, up⟩ hs (fun x => rmw3_sem .and w x _ (by simp only [Amo.fn, reg_low h])) trivial
  | fetchOr w =>
    intro x x' v hs
    exact amo_sem h ⟨.fetchOr w, o, sg, up⟩ hs (fun x => rmw3_sem .or w x _ (by simp only [Amo.fn, reg_low h])) trivial
  | fetchXor w =>
    intro x x' v hs
    exact amo_sem h ⟨.fetchXor w, o, sg, up⟩ hs (fun x => rmw3_sem .xor w x _ (by simp only [Amo.fn, reg_low h])) trivial
  | fetchNot =>
    intro x x' v hs
    refine amo_sem h ⟨.fetchNot, o, sg, up⟩ hs (fun x => ?_) trivial
    have := rmw2_sem .not x
    have e : Amo.fn .xor x ((BitVec.allOnes L).setWidth n) = ~~~x := by
      simp only [Amo.fn, ones_low h, BitVec.xor_allOnes]
    simp only [Call.meant]
    rw [e]
    exact this
  | fetchMax w =>
    intro x x' v hs
    cases sg
    · exact amo_sem h ⟨.fetchMax w, o, false, up⟩ hs (fun x => rmw3_sem .umax w x _ (by
        simp only [Amo.fn, reg_low h, Bool.false_eq_true, if_false]; exact maxu_flip x w)) trivial
    · exact amo_sem h ⟨.fetchMax w, o, true, up⟩ hs (fun x => rmw3_sem .max w x _ (by
        simp only [Amo.fn, reg_low h, if_true]; exact max_flip x w)) trivial
  | fetchMin w =>
    intro x x' v hs
    cases sg
    · exact amo_sem h ⟨.fetchMin w, o, false, up⟩ hs (fun x => rmw3_sem .umin w x _ (by
        simp only [Amo.fn, reg_low h, Bool.false_eq_true, if_false])) trivial
    · exact amo_sem h ⟨.fetchMin w, o, true, up⟩ hs (fun x => rmw3_sem .min w x _ (by
        simp only [Amo.fn, reg_low h, if_true])) trivial

end Verif.Riscv
