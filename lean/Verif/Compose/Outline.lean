import Verif.Wide.ApiSim
import Verif.Compose.Cells
/-!
# Public operations on processors without double-width instructions

The functions of a back end call, when the processor is found not to have the instructions, those of
`src/imp/fallback/outline_atomics.rs`, which are methods of the lock-based type.
-/
set_option autoImplicit false
namespace Verif.Wide
open Verif.Int Verif.Object Verif.Lf Verif.Compose

variable {n : Nat} {K : Type} [DecidableEq K]

/-- `outline_atomics.rs` L51-L199: the method of the lock-based type for each function (`atomic_max` and `atomic_min`
those of the signed type, L192, L194); the methods are `src/imp/fallback/mod.rs` L208-L545. -/
def outline (op : WOp n) (o f : MemOrd) : Op (BitVec n) :=
  match op with
  | .load => .load o
  | .store v => .store v o
  | .swap v => .swap v o
  | .cas c x | .casWeak c x => .cas c x o f
  | .rmw3 .add v => .rmw (Bin.fn .add v) o
  | .rmw3 .sub v => .rmw (Bin.fn .sub v) o
  | .rmw3 .and v => .rmw (Bin.fn .and v) o
  | .rmw3 .nand v => .rmw (BinF.fn false .nand v) o
  | .rmw3 .or v => .rmw (Bin.fn .or v) o
  | .rmw3 .xor v => .rmw (Bin.fn .xor v) o
  | .rmw3 .max v => .rmw (BinF.fn true .max v) o
  | .rmw3 .umax v => .rmw (BinF.fn false .max v) o
  | .rmw3 .min v => .rmw (BinF.fn true .min v) o
  | .rmw3 .umin v => .rmw (BinF.fn false .min v) o
  | .rmw2 .not => .rmw (fun x => ~~~x) o
  | .rmw2 .neg => .rmw (fun x => -x) o

/-- What becomes of the answer: a store made of a swap drops it. -/
def outlineAns (op : WOp n) (r : Res (BitVec n)) : Res (BitVec n) :=
  match op, r with
  | .store _, .val _ => .unit
  | _, r => r

/-- How the methods call the lock: `sel a op o f` - the function `a` calls the lock's `op` with orderings `o`, `f`. -/
def LockCalls (sel : Fn n → WOp n → MemOrd → MemOrd → Prop) (a : K × Fn n) (i : K × Op (BitVec n))
    (d : Res (BitVec n) → Res (BitVec n)) : Prop :=
  i.1 = a.1 ∧ (∃ op o f, sel a.2 op o f ∧ i.2 = outline op o f) ∧ d = outlineAns a.2.op

/-- The lock is asked for the operation (a store may be a swap), with orderings it accepts. -/
def SelOk (sel : Fn n → WOp n → MemOrd → MemOrd → Prop) : Prop :=
  ∀ a op o f, sel a op o f → (op = a.op ∨ ∃ v, a.op = .store v ∧ op = .swap v) ∧ op.OrdOk o f

theorem outline_sem (op : WOp n) (o f : MemOrd) (h : op.OrdOk o f) (x : BitVec n) :
    op.Sem x ((outline op o f).onCell x).1 ((outline op o f).onCell x).2 := by
  cases op with
  | load =>
    simp only [WOp.OrdOk] at h
    cases o <;> simp_all [outline, Op.onCell, Op.ordOk, WOp.Sem]
  | store v =>
    simp only [WOp.OrdOk] at h
    cases o <;> simp_all [outline, Op.onCell, Op.ordOk, WOp.Sem]
  | swap v => simp [outline, Op.onCell, Op.ordOk, WOp.Sem]
  | cas c y | casWeak c y =>
    simp only [WOp.OrdOk] at h
    by_cases hx : x = c
    · cases f <;> simp_all [outline, Op.onCell, Op.ordOk, WOp.Sem]
    · cases f <;> simp_all [outline, Op.onCell, Op.ordOk, WOp.Sem]
  | rmw3 p v =>
    cases p <;> simp only [outline, Op.onCell, Op.ordOk, WOp.Sem, if_true, and_true] <;>
      first
      | exact bin_post _ x v
      | exact binF_post _ _ x v
  | rmw2 p =>
    cases p <;> simp only [outline, Op.onCell, Op.ordOk, WOp.Sem, if_true, and_true]
    · exact un_post .not x
    · exact un_post .neg x

theorem outlineAns_of_ne {op : WOp n} (h : ∀ v, op ≠ .store v) (r : Res (BitVec n)) : outlineAns op r = r := by
  cases op with
  | store v => exact absurd rfl (h v)
  | _ => cases r <;> rfl

def lockBridge {sel : Fn n → WOp n → MemOrd → MemOrd → Prop} (hs : SelOk sel) :
    Bridge ((opSpec (BitVec n)).many (K := K)) ((ideal n).many (K := K)) (LockCalls sel) where
  abs m := m
  sem := by
    rintro ⟨k, a⟩ ⟨k', i⟩ d x x' p ⟨h1, ⟨op, o, f, h2, h3⟩, rfl⟩ ⟨y, hy, rfl⟩
    simp only at h1 h2 h3
    subst h1 h3
    refine ⟨y, ?_, rfl⟩
    obtain ⟨h4, h5⟩ := hs _ _ _ _ h2
    have hy : (y, p) = (outline op o f).onCell (x k') := hy
    show a.op.Sem (x k') y (outlineAns a.op p)
    have := outline_sem op o f h5 (x k')
    rw [← hy] at this
    clear hy
    simp only at this
    rcases h4 with rfl | ⟨v, h4, rfl⟩
    · cases ha : a.op with
      | store v =>
        rw [ha] at this
        obtain ⟨e1, e2⟩ := this
        subst e2
        exact ⟨e1, rfl⟩
      | _ =>
        rw [outlineAns_of_ne (by intro v h; simp at h), ← ha]
        exact this
    · obtain ⟨e1, e2⟩ := this
      subst e2
      rw [h4]
      exact ⟨e1, rfl⟩

end Verif.Wide
