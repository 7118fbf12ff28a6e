import Verif.Rv.Proof
/-!
# Sub-word operations on RISC-V (C14)
-/
namespace Verif.Rv
open Verif.Lf Verif.Object

variable {L : Nat}

/-- **C14a.** For every register width of at least 32 bits, every properly aligned address of an 8- or
16-bit atomic, every memory and every operation and argument: the answer is the one of the operation
on the value the object's bytes held, the object's bytes afterwards hold the operation's result, and
no other byte of memory changed. -/
theorem sub_word_exact (hL : 32 ≤ L) (sz : Nat) (addr : BitVec L) (hsz : sz = 1 ∨ sz = 2)
    (hal : addr.toNat % sz = 0) (op : SOp sz) (m : Mem L) :
    SemBytes sz addr op (view m) (view (exec sz addr op m).1) (exec sz addr op m).2 :=
  exec_ok hL ⟨hsz, hal⟩ op m

/-- A call of an operation on some 8- or 16-bit atomic. -/
structure Call (L : Nat) where
  sz : Nat
  addr : BitVec L
  op : SOp sz
  size : sz = 1 ∨ sz = 2
  align : addr.toNat % sz = 0

/-- Program points: each operation is one memory access. -/
inductive Pc (L : Nat) where
  | start (c : Call L)
  | fin (r : Σ sz, SRes sz)

/-- The code: one access (`exec`), then return. -/
def sys (L : Nat) : Sys (Mem L) (Pc L) (Call L) (Σ sz, SRes sz) where
  start _ c := .start c
  step _ l m l' m' := ∃ c, l = .start c ∧ m' = (exec c.sz c.addr c.op m).1 ∧
    l' = .fin ⟨c.sz, (exec c.sz c.addr c.op m).2⟩
  ret
    | .start _ => none
    | .fin r => some r

/-- Byte memory with 8- and 16-bit objects in it, possibly several in one word. -/
def spec (L : Nat) : Spec (Bytes L) (Call L) (Σ sz, SRes sz) where
  sem c b b' r := ∃ r0, r = ⟨c.sz, r0⟩ ∧ SemBytes c.sz c.addr c.op b b' r0

/-- **C14b.** Any concurrent history of such operations, on any objects (neighbours in one word
included), is linearizable over byte memory. -/
theorem sub_word_linearizable (hL : 32 ≤ L) (m : Mem L)
    (h : List (Object.Ev (Call L) (Σ sz, SRes sz))) (s) (hx : Runs (sys L) m h s) :
    LinearizableTo (spec L) (view m) h (view s.mem) := by
  refine Sim.linearizable (I := sys L) (S := spec L)
    { abs := view
      inv := fun _ => True
      at_ := fun _ _ l st => match l with
        | .start c => st = .pending c
        | .fin r => st = .done r
      start := fun _ _ _ _ => rfl
      step := ?_
      stable := fun _ _ _ _ _ _ _ _ _ _ _ _ _ h => h
      ret := ?_ } trivial hx
  · rintro t m l l' m' st _ hat ⟨c, rfl, rfl, rfl⟩
    refine ⟨trivial, Or.inr ⟨c, _, hat, ⟨_, rfl, ?_⟩, rfl⟩⟩
    exact sub_word_exact hL c.sz c.addr c.size c.align c.op m
  · intro t m l st r _ hat hr
    cases l with
    | start c => simp [sys] at hr
    | fin r' => simp only [sys, Option.some.injEq] at hr; subst hr; exact hat

/-- A concrete case: `fetch_and(0x0f)` on the byte at offset 3 of the word `0xaabbccdd`. -/
example : (exec 1 (0x1003 : BitVec 64) (.fetch .and 0x0f .seqCst) (fun _ => 0xaabbccdd)).1 0x1000
    = 0x0abbccdd := by decide +kernel

/-- And `fetch_xor(0x1234)` on the halfword at offset 2. -/
example : (exec 2 (0x1002 : BitVec 32) (.fetch .xor 0x1234 .relaxed) (fun _ => 0xaabbccdd)).1 0x1000
    = 0xb88fccdd := by decide +kernel

/-- The theorem's hypotheses hold for it. -/
example : SemBytes 2 (0x1002 : BitVec 32) (.fetch .xor 0x1234 .relaxed) (view fun _ => 0xaabbccdd)
    (view (exec 2 (0x1002 : BitVec 32) (.fetch .xor 0x1234 .relaxed) (fun _ => 0xaabbccdd)).1)
    (exec 2 (0x1002 : BitVec 32) (.fetch .xor 0x1234 .relaxed) (fun _ => 0xaabbccdd)).2 :=
  sub_word_exact (by decide) 2 _ (Or.inr rfl) (by decide) _ _

end Verif.Rv
