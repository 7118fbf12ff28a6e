import Verif.X86.Sim
import Verif.Utils.Pair
/-!
# 128-bit atomics on x86_64 (C28, C29)

`code.sys K` runs the inline-assembly blocks of `x86_64.rs`, one instruction per step, for any
number of 16-byte objects (`K`) and threads, from arbitrary contents of the registers and flags.
-/
namespace Verif.X86
open Verif.Lf Verif.Object Verif.Int

/-- **C28a.** The instruction sequence of a three-operand read-modify-write, from any registers and
flags: it runs to its end, `rcx:rbx` then holds the operation of the old value `rdx:rax` and the
argument `r9:r8` on 128-bit integers (as specified by `Block.Sem`), and every other register is as
before. -/
theorem rmw3_value (o : Op3) (r : Regs) (f : Flags) :
    ∃ r' f', runBlock (body3 o) (r, f) = some (r', f') ∧
      (Block.rmw3 o (r.r9 ++ r.r8)).Sem (r.rdx ++ r.rax) (r'.rcx ++ r'.rbx) (.val (r.rdx ++ r.rax)) ∧
      (∀ x, x ≠ .rbx → x ≠ .rcx → r'.get x = r.get x) ∧ r'.xmm = r.xmm := by
  obtain ⟨f', h⟩ := body3_run o r f
  refine ⟨_, f', h, ?_, ?_, rfl⟩
  · simp only [join_halves]; exact fn3_sem o _ _
  · intro x h1 h2; cases x <;> first | rfl | contradiction

/-- **C28b.** The same for `not` and `neg`. -/
theorem rmw2_value (o : Op2) (r : Regs) (f : Flags) :
    ∃ r' f', runBlock (body2 o) (r, f) = some (r', f') ∧
      (Block.rmw2 o).Sem (r.rdx ++ r.rax) (r'.rcx ++ r'.rbx) (.val (r.rdx ++ r.rax)) ∧
      (∀ x, x ≠ .rbx → x ≠ .rcx → r'.get x = r.get x) ∧ r'.xmm = r.xmm := by
  obtain ⟨f', h⟩ := body2_run o r f
  refine ⟨_, f', h, ?_, ?_, rfl⟩
  · simp only [join_halves]; exact fn2_sem o _
  · intro x h1 h2; cases x <;> first | rfl | contradiction

/-- **C29a.** Every concurrent history of 128-bit loads, stores, swaps, compare-exchanges and
read-modify-writes is linearizable with respect to a plain 128-bit integer, although the first read
of a loop is done in two halves; and every call leaves all registers its `asm!` operands do not
declare as outputs (`rbx` in particular) as they were. -/
theorem x86_linearizable {K : Type} [DecidableEq K] (m : K → BitVec 128)
    (h : List (Object.Ev (K × Call) (Res (BitVec 128) × Regs))) (s)
    (hx : Runs (code.sys K) m h s) : LinearizableTo (spec.many (K := K)) m h s.mem :=
  sim.linearizable (m := m) (fun _ => trivial) hx

/-- **C29b.** Undisturbed, every operation finishes, whatever the registers contain at entry, having
done exactly what is specified. -/
theorem x86_finishes (c : Call) (x : BitVec 128) :
    ∃ n r, code.next (code.alone n (code.start c) x).1 = .ret r ∧
      spec.sem c x (code.alone n (code.start c) x).2 r := alone_finishes c x

/-- **C29c.** A failed attempt of a loop means that the object does not hold the value the attempt was
computed from: some other thread wrote it since it was read (or between the two halves of the first
read). -/
theorem x86_failure_means_interference (l : Loc) (a f) (x x' y : BitVec 128)
    (hl : step l = .acc a f) (hs : a.sem x x' (.err y)) :
    x ≠ l.regs.rdx ++ l.regs.rax ∧ x' = x := by
  cases hi : l.ins with
  | none => simp [step, hi] at hl
  | some i =>
    cases i with
    | cmpxchg16b base =>
      simp only [step, hi] at hl
      split at hl
      · obtain ⟨rfl, rfl⟩ := Next.acc.inj hl
        rcases cas_sem hs with ⟨_, _, h⟩ | ⟨h1, h2, _⟩
        · simp at h
        · exact ⟨h1, h2⟩
      · simp at hl
    | ldq d base b | ldx base | stx base =>
      simp only [step, hi] at hl
      split at hl
      · obtain ⟨rfl, rfl⟩ := Next.acc.inj hl
        simp [Acc.sem, Op.onCell, Op.ordOk] at hs
      · simp at hl
    | fence | jne _ => simp [step, hi] at hl
    | _ => simp [step, hi, Ins.exec] at hl

/-- The halves the blocks pass in registers are those of the `U128` union (C30). -/
theorem halves_are_union (x : BitVec 128) :
    Pair.pair .little false 8 x.toNat = ((lo x).toNat, (hi x).toNat) := by
  have hx : x.toNat < 2 ^ (8 * (8 + 8)) := x.isLt
  rw [Pair.pair_eq _ _ _ _ hx, if_neg (by simp)]
  simp only [lo, hi, BitVec.extractLsb'_toNat, Nat.shiftRight_eq_div_pow]
  have := x.isLt
  congr 1 <;> omega

/-! ## Concrete cases -/

/-- Registers full of garbage. -/
def garbage : Regs := ⟨11, 12, 13, 14, 15, 16, 17, 18, 19, 20, 21⟩

def someFlags : Flags := ⟨true, false, true, false⟩

/-- Thread 0's `fetch_sub(1)` reads the two halves around thread 1's swap (a torn value), and still
subtracts from what is there. -/
def demo : List (Cmd Unit Call) :=
  [.call 0 () ⟨.rmw3 .sub 1, .unix, 0x1000, garbage, someFlags⟩, .go 0, .go 0,
   .call 1 () ⟨.swap 0x5_0000000000000000, .windows, 0x1000, garbage, someFlags⟩,
   .go 1, .go 1, .go 1, .go 1, .go 1, .go 1, .ret 1,
   .go 0, .go 0, .go 0, .go 0, .go 0,
   .go 0, .go 0, .go 0, .go 0, .go 0, .go 0, .go 0, .go 0, .go 0]

example : (code.outcome (demo ++ [.ret 0]) (fun _ => 0x3_0000000000000007) ()).map
    (fun p => (p.1.map fun q => (q.1, q.2.1, q.2.2.rbx), p.2)) =
    some ([(1, .val 0x3_0000000000000007, 12), (0, .val 0x5_0000000000000000, 12)],
      0x4_ffffffffffffffff) := by
  decide +kernel

end Verif.X86
