import Verif.Spec.Float
import Verif.Lf.Progress
import Verif.Spec.Ordering
/-!
# Properties of float atomics (C21, C22)
-/
namespace Verif.Float
open Verif.Lf Verif.Object Verif.Int

variable {w : Nat}

theorem absMask_toNat (hw : 0 < w) : (absMask w).toNat = 2 ^ (w - 1) - 1 := by
  obtain ⟨n, rfl⟩ : ∃ n, w = n + 1 := ⟨w - 1, by omega⟩
  simp only [absMask, BitVec.toNat_udiv, BitVec.toNat_not, BitVec.toNat_ofNat]
  have h1 : 0 < 2 ^ n := Nat.two_pow_pos n
  cases n with
  | zero => decide
  | succ m =>
    have h2 : 2 % 2 ^ (m + 1 + 1) = 2 := Nat.mod_eq_of_lt (by rw [Nat.pow_succ, Nat.pow_succ]; omega)
    rw [h2, Nat.zero_mod, Nat.pow_succ]
    simp only [Nat.add_sub_cancel]
    omega

theorem absMask_bit (hw : 0 < w) (i : Nat) : (absMask w).getLsbD i = decide (i < w - 1) := by
  rw [BitVec.getLsbD, absMask_toNat hw, Nat.testBit_two_pow_sub_one]

theorem negMask_eq (hw : 0 < w) : negMask w = 1#w <<< (w - 1) := by
  apply BitVec.eq_of_toNat_eq
  have e : negMask w = absMask w + 1#w := rfl
  rw [e, BitVec.toNat_add, absMask_toNat hw, BitVec.toNat_shiftLeft, Nat.shiftLeft_eq]
  have h1 : 0 < 2 ^ (w - 1) := Nat.two_pow_pos _
  have h2 : 2 ^ (w - 1) < 2 ^ w := Nat.pow_lt_pow_right (by omega) (by omega)
  have h3 : 1 % 2 ^ w = 1 := Nat.mod_eq_of_lt (by omega)
  simp only [BitVec.toNat_ofNat, h3]
  congr 1
  omega

theorem negMask_bit (hw : 0 < w) (i : Nat) : (negMask w).getLsbD i = decide (i = w - 1) := by
  rw [negMask_eq hw]; exact getLsbD_one_shift (by omega) i

theorem prog_impl {e : Nat} (hw : w = 2 ^ e) (signed : Bool) {A : Arith w} {f : FBackend}
    (op : FOp A f) (p : P w) (hp : prog signed op = some p) : p.Implements (Sem signed op) := by
  have hw0 : 0 < w := by subst hw; exact Nat.two_pow_pos e
  have core : ∀ (iop : IOp w) (q : P w), Int.prog signed f.base iop = some q →
      q.Implements (Int.Sem signed iop) := fun iop q hq => Int.prog_impl hw signed f.base iop q hq
  cases op with
  | load o => exact core (.load o) p hp
  | store v o => exact core (.store v o) p hp
  | swap v o => exact core (.swap v o) p hp
  | compareExchange c n s g => exact core (.compareExchange c n s g) p hp
  | compareExchangeWeak c n s g => exact core (.compareExchangeWeak c n s g) p hp
  | fetchUpdate s g c => exact core (.fetchUpdate s g c) p hp
  | fetchNeg o =>
    rw [← mapRes_id p]
    refine fetchBin_impl (b := .xor) hp fun x => ⟨fun i hi => ?_, rfl⟩
    simp only [Bin.fn, BitVec.getLsbD_xor, negMask_bit hw0]
    by_cases h : i = w - 1 <;> simp [h]
  | fetchAbs o =>
    rw [← mapRes_id p]
    refine fetchBin_impl (b := .and) hp fun x => ⟨fun i hi => ?_, rfl⟩
    simp only [Bin.fn, BitVec.getLsbD_and, absMask_bit hw0]
    by_cases h : i = w - 1
    · simp [h]
    · have : i < w - 1 := by omega
      simp [h, this]
  | arith b v o ch =>
    cases f with
    | int k =>
      simp only [prog] at hp
      split at hp
      · simp only [Option.some.injEq] at hp; subst hp
        refine Or.inr ⟨by simp, by simp, ?_, ?_⟩
        · intro hist x y h
          simp only [Option.some.injEq] at h
          subst h
          exact ⟨ch.ok hist x, rfl⟩
        · intro hist x h; simp at h
      · simp at hp
    | lsfe k =>
      simp only [prog, Option.some.injEq] at hp; subst hp
      rw [← mapRes_id (rmw _ o)]
      refine rmw_impl fun x => ⟨?_, rfl⟩
      have := ch.ok [] x
      cases b with
      | sub => exact A.sub_of_add _ _ _ this
      | _ => exact this
  | bits iop => exact core iop p hp

/-! ## The properties -/

/-- The operations that exist. -/
abbrev Avail (signed : Bool) (A : Arith w) (f : FBackend) :=
  { op : FOp A f // (prog signed op).isSome }

/-- Their code. -/
def codeOf (signed : Bool) (A : Arith w) (f : FBackend) :
    Code (BitVec w) (Avail signed A f) (IRes w) (Prog.Pc (BitVec w) (IRes w)) :=
  Prog.code fun op => (prog signed op.1).get op.2

/-- A shared float, restricted to the available operations. -/
def specOf (signed : Bool) (A : Arith w) (f : FBackend) :
    Spec (BitVec w) (Avail signed A f) (IRes w) where
  sem op := Sem signed op.1

/-- **C21, C22.** Every history of float-atomic operations, including integer operations through
`as_bits`, is linearizable with respect to a plain bit pattern with the operations of
`Verif.Float.Sem`: `load`/`store`/`swap` are bit-exact, `compare_exchange` compares bits,
`fetch_neg`/`fetch_abs` change exactly the sign bit, and arithmetic stores a possible result for the
bits it actually replaced. -/
theorem float_linearizable (e : Nat) (signed : Bool) (A : Arith (2 ^ e)) (f : FBackend)
    (m : Obj → BitVec (2 ^ e)) (h : List (Object.Ev (Obj × Avail signed A f) (IRes (2 ^ e)))) (s)
    (hx : Runs ((codeOf signed A f).sys Obj) m h s) :
    LinearizableTo ((specOf signed A f).many (K := Obj)) m h s.mem := by
  refine Prog.linearizable (S := specOf signed A f) (fun op => ?_) hx
  exact prog_impl rfl signed op.1 _ (Option.some_get op.2).symm

/-- **C22b.** Without interference a float read-modify-write finishes: from any remembered value
(fresh, stale, NaN or not) at most two attempts, from the current one a single attempt; it stores a
possible float result of the value in the cell and returns that value. -/
theorem float_loop_finishes (A : Arith w) (b : FBin) (v : BitVec w) (o : MemOrd)
    (ch : Oracle A b v) (hist : List (BitVec w)) (prev x : BitVec w) :
    ∃ y, A.res b x v y ∧
      Prog.alone 2 (.update o .relaxed (fun hist x => some (ch.out hist x)) okVal hist prev) x =
        (.fin (.res (.val x)), y) ∧
      (prev = x →
        Prog.alone 1 (.update o .relaxed (fun hist x => some (ch.out hist x)) okVal hist prev) x =
          (.fin (.res (.val x)), y)) := by
  by_cases h : x = prev
  · subst h
    refine ⟨ch.out hist x, ch.ok _ _, ?_, fun _ => ?_⟩ <;>
      simp [Prog.alone, Prog.next, Acc.exec, Op.onCell, Op.ordOk, Prog.afterUpd, okVal]
  · refine ⟨ch.out (hist ++ [prev]) x, ch.ok _ _, ?_, fun e => absurd e.symm h⟩
    simp [Prog.alone, Prog.next, Acc.exec, Op.onCell, Op.ordOk, Prog.afterUpd, okVal, h]

/-- **C21b.** `fetch_neg` twice restores every bit pattern; `fetch_abs` is idempotent. -/
theorem neg_neg_restores (signed : Bool) {A : Arith w} {f : FBackend} (o o' : MemOrd)
    (x y z : BitVec w) (r r' : IRes w) (h1 : Sem signed (A := A) (f := f) (.fetchNeg o) x y r)
    (h2 : Sem signed (A := A) (f := f) (.fetchNeg o') y z r') : z = x := by
  refine BitVec.eq_of_getLsbD_eq fun i hi => ?_
  rw [h2.1 i hi, h1.1 i hi]
  by_cases h : i = w - 1 <;> simp [h]

theorem abs_abs_same (signed : Bool) {A : Arith w} {f : FBackend} (o o' : MemOrd)
    (x y z : BitVec w) (r r' : IRes w) (h1 : Sem signed (A := A) (f := f) (.fetchAbs o) x y r)
    (h2 : Sem signed (A := A) (f := f) (.fetchAbs o') y z r') : z = y := by
  refine BitVec.eq_of_getLsbD_eq fun i hi => ?_
  rw [h2.1 i hi, h1.1 i hi]
  by_cases h : i = w - 1 <;> simp [h]

/-- **C22c.** Arithmetic takes effect with at least the requested ordering. -/
theorem float_ordering_kept (signed : Bool) {A : Arith w} {f : FBackend} (b : FBin) (v : BitVec w)
    (o : MemOrd) (ch : Oracle A (evald f b v).1 (evald f b v).2) (p : P w)
    (hp : prog signed (.arith b v o ch) = some p) :
    (∃ c dec, p = .update o .relaxed c dec) ∨ (∃ g dec, p = .one (.op (.rmw g o)) dec) := by
  cases f with
  | int k =>
    simp only [prog] at hp
    split at hp
    · simp only [Option.some.injEq] at hp; exact Or.inl ⟨_, _, hp.symm⟩
    · simp at hp
  | lsfe k => simp only [prog, Option.some.injEq] at hp; exact Or.inr ⟨_, _, hp.symm⟩

/-! ## A concrete arithmetic and a concrete run

An 8-bit sign-magnitude number format whose magnitude `127` is NaN; a NaN result may have either
sign.  Thread 0 adds 3 to a NaN while thread 1 flips the sign in between: the bit patterns differ,
so the attempt fails and is retried; the loop does not spin although `NaN != NaN`. -/

def mag (x : BitVec 8) : Nat := x.toNat % 128
def isNan (x : BitVec 8) : Bool := mag x = 127
def sval (x : BitVec 8) : Int := if x.getLsbD 7 then - (mag x : Int) else mag x
def ofInt (i : Int) : BitVec 8 :=
  if i < 0 then BitVec.ofNat 8 (128 + min 126 i.natAbs) else BitVec.ofNat 8 (min 126 i.natAbs)
def addv (x v : BitVec 8) : BitVec 8 := if isNan x || isNan v then 127 else ofInt (sval x + sval v)

def toy : Arith 8 where
  res b x v y :=
    match b with
    | .add => y = addv x v ∨ (isNan (addv x v) ∧ isNan y)
    | .sub => y = addv x (v ^^^ negMask 8) ∨ (isNan (addv x (v ^^^ negMask 8)) ∧ isNan y)
    | .max => y = if isNan x then v else if isNan v ∨ sval v ≤ sval x then x else v
    | .min => y = if isNan x then v else if isNan v ∨ sval x ≤ sval v then x else v
  sub_of_add _ _ _ h := h

/-- Alternates the sign of NaN results. -/
def toyAdd (v : BitVec 8) : Oracle toy .add v where
  out hist x := if isNan (addv x v) ∧ hist.length % 2 = 1 then 255 else addv x v
  ok hist x := by
    by_cases h : isNan (addv x v) ∧ hist.length % 2 = 1
    · simp only [h, and_self, if_true]
      exact Or.inr ⟨h.1, by decide⟩
    · simp only [if_neg h]
      exact Or.inl rfl

abbrev demoB : FBackend := .int (.core false true false)

def demoOp (op : FOp toy demoB) (h : (prog false op).isSome := by rfl) : Avail false toy demoB :=
  ⟨op, h⟩

def demo : List (Cmd Obj (Avail false toy demoB)) :=
  [.call 0 1 (demoOp (.arith .add 3 .acqRel (toyAdd 3))), .go 0,
   .call 1 1 (demoOp (.fetchNeg .relaxed)), .go 1, .ret 1,
   .go 0, .go 0, .ret 0]

example : (codeOf (w := 2 ^ 3) false toy demoB).outcome demo (fun _ => 127) 1 =
    some ([(1, .res (.val 127)), (0, .res (.val 255))], 255) := by decide +kernel

example : Sem false (A := toy) (f := demoB) (.fetchNeg .relaxed) 5 133 (.res (.val 5)) ∧
    Sem false (A := toy) (f := demoB) (.fetchAbs .relaxed) 133 5 (.res (.val 133)) := by
  constructor <;> refine ⟨?_, rfl⟩ <;> decide

end Verif.Float
