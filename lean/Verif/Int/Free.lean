import Verif.Lf.CodeFree
import Verif.Props.Int
import Verif.Props.Ptr
import Verif.Props.Float
/-!
# Lock-freedom of the integer, pointer and float operations (C66)
-/
set_option autoImplicit false
namespace Verif.Int
open Verif.Lf Verif.Object

variable {w : Nat}

/-- No single weak compare-exchange, and loops begin with a relaxed load. -/
def Plain : P w → Prop
  | .loop rd _ _ _ => rd = .op (.load .relaxed)
  | .one (.op _) _ => True
  | .one _ _ => False
  | _ => True

theorem Plain.fit {p : P w} (h : Plain p) : p.Fit := by
  match p with
  | .stop _ => trivial
  | .update _ _ _ _ => trivial
  | .one (.op _) _ => trivial
  | .one (.casWeak _ _ _ _) _ => exact h.elim
  | .one .peek _ => trivial
  | .loop rd f o dec => cases h; exact isRead_load (by simp) (by simp)

theorem plain_mapRes {p : P w} (g : IRes w → IRes w) (h : Plain p) : Plain (mapRes g p) := by
  match p with
  | .stop _ => trivial
  | .update _ _ _ _ => trivial
  | .one (.op _) _ => trivial
  | .one (.casWeak _ _ _ _) _ => exact h.elim
  | .one .peek _ => exact h.elim
  | .loop rd f o dec => exact h

theorem plain_drop {p : P w} (h : Plain p) : Plain (drop p) := by
  match p with
  | .stop _ => trivial
  | .update _ _ _ _ => trivial
  | .one (.op _) _ => trivial
  | .one (.casWeak _ _ _ _) _ => exact h.elim
  | .one .peek _ => exact h.elim
  | .loop rd f o dec => exact h

theorem plain_fetchBin {k : Backend} {b : Bin} {v : BitVec w} {o : MemOrd} {p : P w} (h : fetchBin k b v o = some p) :
    Plain p := by
  cases k <;> cases b <;> simp only [fetchBin, Option.some.injEq, reduceCtorEq] at h <;> subst h <;> trivial

theorem plain_fetchUn {k : Backend} {u : Un} {o : MemOrd} {p : P w} (h : fetchUn k u o = some p) : Plain p := by
  cases k <;> cases u <;> simp only [fetchUn, Option.some.injEq, reduceCtorEq] at h
  all_goals first
    | exact plain_fetchBin h
    | (subst h; first | trivial | rfl)

theorem plain_fetchBinF {signed : Bool} {k : Backend} {b : BinF} {v : BitVec w} {o : MemOrd} {p : P w}
    (h : fetchBinF signed k b v o = some p) : Plain p := by
  cases k with
  | core m x y =>
    cases m <;> cases b <;> simp only [fetchBinF, Option.some.injEq, reduceCtorEq] at h <;> subst h <;>
      first | trivial | rfl
  | _ => cases b <;> simp only [fetchBinF, Option.some.injEq, reduceCtorEq] at h <;> subst h <;> trivial

theorem plain_un {k : Backend} {u : Un} {o : MemOrd} {p : P w} (h : un k u o = some p) : Plain p := by
  unfold un at h
  split at h
  · cases h; trivial
  · cases h; trivial
  · obtain ⟨q, hq, rfl⟩ := Option.map_eq_some_iff.1 h
    exact plain_drop (plain_fetchUn hq)

theorem plain_bit {k : Backend} {b : BitOp} {n : BitVec 32} {o : MemOrd} {p : P w} (h : bit k b n o = some p) : Plain p := by
  unfold bit at h
  split at h
  · cases h; trivial
  · unfold bitDefault at h
    cases b <;> (obtain ⟨q, hq, rfl⟩ := Option.map_eq_some_iff.1 h; exact plain_mapRes _ (plain_fetchBin hq))

theorem prog_fit {signed : Bool} {k : Backend} {op : IOp w} {p : P w} (h : prog signed k op = some p) : p.Fit := by
  cases op with
  | load | store | swap => cases h; trivial
  | compareExchange c n s f => simp only [prog] at h; split at h <;> cases h; trivial
  | compareExchangeWeak c n s f =>
    simp only [prog] at h; split at h <;> cases h
    show IRes.res _ ≠ IRes.res _
    simp
  | fetchBin => exact (plain_fetchBin h).fit
  | bin =>
    obtain ⟨q, hq, rfl⟩ := Option.map_eq_some_iff.1 h
    exact (plain_drop (plain_fetchBin hq)).fit
  | fetchBinF => exact (plain_fetchBinF h).fit
  | fetchUn => exact (plain_fetchUn h).fit
  | un => exact (plain_un h).fit
  | bit => exact (plain_bit h).fit
  | fetchUpdate s g f => simp only [prog] at h; split at h <;> cases h; trivial

end Verif.Int

namespace Verif.Ptr
open Verif.Lf Verif.Object Verif.Int

variable {w : Nat}

theorem plain_arith {k : Backend} {b : Bin} {v : BitVec w} {o : MemOrd} : Plain (arith k b v o) := by
  cases k <;> cases b <;> first | trivial | rfl

theorem prog_fit {size : Nat} {k : Backend} {op : POp w} {p : P w} (h : prog size k op = some p) : p.Fit := by
  cases op with
  | load | store | swap => cases h; trivial
  | compareExchange c n s f => simp only [prog] at h; split at h <;> cases h; trivial
  | compareExchangeWeak c n s f =>
    simp only [prog] at h; split at h <;> cases h
    show IRes.res _ ≠ IRes.res _
    simp
  | fetchUpdate s g f => simp only [prog] at h; split at h <;> cases h; trivial
  | bit b n o =>
    cases h
    unfold bit
    split
    · trivial
    · unfold bitDefault
      cases b <;> exact (plain_mapRes _ plain_arith).fit
  | _ => cases h; exact plain_arith.fit

end Verif.Ptr

namespace Verif.Float
open Verif.Lf Verif.Object Verif.Int

variable {w : Nat}

theorem prog_fit {signed : Bool} {A : Arith w} {f : FBackend} {op : FOp A f} {p : P w} (h : prog signed op = some p) :
    p.Fit := by
  cases op with
  | fetchUpdate s g c => simp only [prog] at h; split at h <;> cases h; trivial
  | arith b v o ch =>
    simp only [prog] at h
    split at h
    · split at h <;> cases h; trivial
    · cases h; trivial
  | _ => simp only [prog] at h; exact Int.prog_fit h

end Verif.Float
