import Mathlib.Logic.Equiv.Defs
import Verif.Compose.Sim
import Verif.Props.Int
/-!
# Implementations of whole-cell accesses

Three kinds of objects on which code made of accesses (`Lf/Access.lean`) runs: cells with the operations of `Op`
(the lock-based fallback), such cells holding an encoding of the value (several words, in critical sections), and
objects with the public operations of an integer atomic (for floats and pointers over integers).
-/
set_option autoImplicit false
set_option linter.unusedSectionVars false
namespace Verif.Compose
open Verif.Object Verif.Lf

variable {V W K : Type} [DecidableEq V] [DecidableEq W] [DecidableEq K]

/-! ## Cells -/

/-- The whole-cell operation an access is made by: the weak compare-exchange of an implementation that has only the
strong one is that (`src/imp/fallback/mod.rs` L288-L298, `src/imp/interrupt/mod.rs` L247-L257). -/
inductive AccOp : Acc V → Op V → Prop where
  | op (o : Op V) : AccOp (.op o) o
  | weak (c x : V) (s f : MemOrd) : AccOp (.casWeak c x s f) (.cas c x s f)

theorem AccOp.sem {a : Acc V} {o : Op V} (h : AccOp a o) (x : V) : a.sem x (o.onCell x).1 (o.onCell x).2 := by
  cases h with
  | op => rfl
  | weak => exact Or.inl rfl

/-- A plain cell with the operations of `Op`. -/
def opSpec (V : Type) [DecidableEq V] : Spec V (Op V) (Res V) where
  sem o x y r := (y, r) = o.onCell x

/-- Calls: same object, the operation as it is, the answer as it is. -/
def CellCalls (a : K × Acc V) (i : K × Op V) (d : Res V → Res V) : Prop := i.1 = a.1 ∧ AccOp a.2 i.2 ∧ d = id

def cellBridge : Bridge ((opSpec V).many (K := K)) ((cell V).many (K := K)) CellCalls where
  abs m := m
  sem := by
    rintro ⟨k, a⟩ ⟨k', o⟩ d x x' p ⟨h1, h2, rfl⟩ ⟨y, hs, rfl⟩
    simp only at h1 h2
    subst h1
    refine ⟨y, ?_, rfl⟩
    have := h2.sem (x k')
    simp only [opSpec] at hs
    rw [← hs] at this
    exact this

/-- The specification of `Spec/Atomic.lean` is that of `Spec/Object.lean`. -/
def toObj : Verif.Ev V → Object.Ev (Obj × Op V) (Res V)
  | .inv t o op => .inv t (o, op)
  | .ret t r => .ret t r

def thObj : Atomic.Th V → Status (Obj × Op V) (Res V)
  | .idle => .idle
  | .pending o op => .pending (o, op)
  | .done r => .done r

theorem thObj_update (f : Tid → Atomic.Th V) (t : Tid) (x : Atomic.Th V) :
    (fun u => thObj (Function.update f t x u)) = Function.update (fun u => thObj (f u)) t (thObj x) := by
  funext u
  by_cases hu : u = t
  · subst hu; simp
  · simp [Function.update_of_ne hu]

theorem atomic_object {cells : Obj → V} {h : List (Verif.Ev V)} (hl : Atomic.Linearizable cells h) :
    Object.Linearizable ((opSpec V).many (K := Obj)) cells (h.map toObj) := by
  obtain ⟨s, hx⟩ := hl
  suffices key : Exec (Object.Step ((opSpec V).many (K := Obj))) { obj := cells, th := fun _ => .idle } (h.map toObj)
      { obj := s.cell, th := fun t => thObj (s.th t) } from ⟨_, _, key, rfl⟩
  generalize hi : Atomic.init cells = i at hx
  induction hx with
  | refl => subst hi; exact .refl _
  | @tau h s s' _ st ih =>
    subst hi
    cases st with
    | commit t o op hp =>
      refine Exec.tau ih ?_
      have := Object.Step.commit (S := (opSpec V).many (K := Obj)) { obj := s.cell, th := fun t => thObj (s.th t) } t
        (o, op) (Function.update s.cell o (op.onCell (s.cell o)).1) (op.onCell (s.cell o)).2 (by simp [hp, thObj])
        ⟨_, rfl, rfl⟩
      rw [thObj_update]; exact this
  | @ev h s e s' _ st ih =>
    subst hi
    rw [List.map_append]
    cases st with
    | inv t o op hp =>
      refine Exec.ev ih ?_
      have := Object.Step.inv (S := (opSpec V).many (K := Obj)) { obj := s.cell, th := fun t => thObj (s.th t) } t
        (o, op) (by simp [hp, thObj])
      rw [thObj_update]; exact this
    | ret t r hp =>
      refine Exec.ev ih ?_
      have := Object.Step.ret (S := (opSpec V).many (K := Obj)) { obj := s.cell, th := fun t => thObj (s.th t) } t
        r (by simp [hp, thObj])
      rw [thObj_update]; exact this

/-! ## Cells with an encoding -/

/-- The operation on the encoded value. -/
def viaOp (e : V ≃ W) : Op V → Op W
  | .load o => .load o
  | .store v o => .store (e v) o
  | .swap v o => .swap (e v) o
  | .cas c x s f => .cas (e c) (e x) s f
  | .rmw f o => .rmw (fun y => e (f (e.symm y))) o

/-- The result decoded. -/
def viaRes (e : V ≃ W) : Res W → Res V
  | .unit => .unit
  | .val v => .val (e.symm v)
  | .ok v => .ok (e.symm v)
  | .err v => .err (e.symm v)
  | .panic => .panic

theorem via_onCell (e : V ≃ W) (o : Op V) (y : W) :
    e.symm ((viaOp e o).onCell y).1 = (o.onCell (e.symm y)).1 ∧
      viaRes e ((viaOp e o).onCell y).2 = (o.onCell (e.symm y)).2 := by
  cases o with
  | load o => cases o <;> simp [Op.onCell, viaOp, Op.ordOk, viaRes]
  | store v o => cases o <;> simp [Op.onCell, viaOp, Op.ordOk, viaRes]
  | swap v o => simp [Op.onCell, viaOp, Op.ordOk, viaRes]
  | rmw f o => simp [Op.onCell, viaOp, Op.ordOk, viaRes]
  | cas c x s f =>
    have h1 : (Op.cas (e c) (e x) s f).ordOk = (Op.cas c x s f).ordOk := rfl
    have h2 : y = e c ↔ e.symm y = c := ⟨fun h => by simp [h], fun h => by simp [← h]⟩
    simp only [Op.onCell, viaOp, h1]
    by_cases h : (Op.cas c x s f).ordOk = true
    · simp only [h, if_true, h2]
      by_cases hy : e.symm y = c
      · simp [hy, viaRes]
      · simp [hy, viaRes]
    · simp [h, viaRes]

/-! ## Integer objects -/

open Verif.Int in
/-- The answer of an operation that returns a value. -/
def intAns {w : Nat} : IRes w → Res (BitVec w)
  | .res r => r
  | .flag _ => .unit

open Verif.Int in
/-- The public operation of an integer atomic an access is. -/
inductive IntCalls {w : Nat} (signed : Bool) :
    K × Acc (BitVec w) → K × IOp w → (IRes w → Res (BitVec w)) → Prop where
  | load (k o) : IntCalls signed (k, .op (.load o)) (k, .load o) intAns
  | store (k v o) : IntCalls signed (k, .op (.store v o)) (k, .store v o) intAns
  | swap (k v o) : IntCalls signed (k, .op (.swap v o)) (k, .swap v o) intAns
  | cas (k c x s f) : IntCalls signed (k, .op (.cas c x s f)) (k, .compareExchange c x s f) intAns
  | weak (k c x s f) : IntCalls signed (k, .casWeak c x s f) (k, .compareExchangeWeak c x s f) intAns
  | bin (k) (b : Bin) (v o) : IntCalls signed (k, .op (.rmw (b.fn v) o)) (k, .fetchBin b v o) intAns
  | binF (k) (b : BinF) (v o) : IntCalls signed (k, .op (.rmw (b.fn signed v) o)) (k, .fetchBinF b v o) intAns
  | un (k) (u : Un) (o) : IntCalls signed (k, .op (.rmw u.fn o)) (k, .fetchUn u o) intAns

open Verif.Int in
def intBridge (w : Nat) (signed : Bool) :
    Bridge ((Int.spec (w := w) signed).many (K := K)) ((cell (BitVec w)).many (K := K)) (IntCalls signed) where
  abs m := m
  sem := by
    intro a i d x x' p hc hs
    cases hc with
    | load k o =>
      obtain ⟨y, ⟨rfl, rfl⟩, rfl⟩ := hs
      refine ⟨_, ?_, rfl⟩
      cases o <;> simp [cell, Acc.sem, Op.onCell, Op.ordOk, intAns]
    | store k v o =>
      obtain ⟨y, hs, rfl⟩ := hs
      refine ⟨_, ?_, rfl⟩
      cases o <;> simp [Int.spec, Sem] at hs <;> obtain ⟨rfl, rfl⟩ := hs <;>
        simp [cell, Acc.sem, Op.onCell, Op.ordOk, intAns]
    | swap k v o =>
      obtain ⟨y, ⟨rfl, rfl⟩, rfl⟩ := hs
      exact ⟨_, by simp [cell, Acc.sem, Op.onCell, Op.ordOk, intAns], rfl⟩
    | cas k c y s f =>
      obtain ⟨z, hs, rfl⟩ := hs
      refine ⟨_, ?_, rfl⟩
      cases f <;> simp [Int.spec, Sem] at hs <;>
        first
        | (obtain ⟨rfl, rfl⟩ := hs; simp [cell, Acc.sem, Op.onCell, Op.ordOk, intAns])
        | (rcases hs with ⟨h1, rfl, rfl⟩ | ⟨h1, rfl, rfl⟩ <;> simp [cell, Acc.sem, Op.onCell, Op.ordOk, intAns, h1])
    | weak k c y s f =>
      obtain ⟨z, hs, rfl⟩ := hs
      refine ⟨_, ?_, rfl⟩
      cases f <;> simp [Int.spec, Sem] at hs <;>
        first
        | (obtain ⟨rfl, rfl⟩ := hs; simp [cell, Acc.sem, Op.onCell, Op.ordOk, intAns]; done)
        | (rcases hs with ⟨h1, rfl, rfl⟩ | ⟨rfl, rfl⟩
           · exact Or.inl (by simp [Op.onCell, Op.ordOk, intAns, h1])
           · exact Or.inr ⟨rfl, rfl, rfl⟩)
    | bin k b v o =>
      obtain ⟨z, ⟨hp, rfl⟩, rfl⟩ := hs
      have := bin_post_unique b _ v _ _ hp (bin_post b (x k) v)
      exact ⟨_, by simp [cell, Acc.sem, Op.onCell, Op.ordOk, intAns, this], rfl⟩
    | binF k b v o =>
      obtain ⟨z, ⟨hp, rfl⟩, rfl⟩ := hs
      have := binF_post_unique signed b _ v _ _ hp (binF_post signed b (x k) v)
      exact ⟨_, by simp [cell, Acc.sem, Op.onCell, Op.ordOk, intAns, this], rfl⟩
    | un k u o =>
      obtain ⟨z, ⟨hp, rfl⟩, rfl⟩ := hs
      have := un_post_unique u _ _ _ hp (un_post u (x k))
      exact ⟨_, by simp [cell, Acc.sem, Op.onCell, Op.ordOk, intAns, this], rfl⟩

end Verif.Compose
