import Verif.Riscv.OrderProof
import Verif.Lf.Run
/-!
# Loads, stores and AMOs on RISC-V without the A extension (C49)
-/
set_option autoImplicit false
namespace Verif.Riscv
open Verif.Lf Verif.Object Verif.Rv64
open Verif.Arm (Acquiring Releasing AsksRelease)
open Verif.Ppc (AsksAcquire)

variable {L n : Nat}

/-- **C49a.** Every concurrent history of these operations, on objects of any width up to the register's,
is linearizable with respect to plain integers, whatever the operand registers hold above the value;
operations called with an ordering they do not allow panic and leave the object alone. -/
theorem riscv_linearizable (hn : n ≤ L) {K : Type} [DecidableEq K] (m : K → BitVec n)
    (h : List (Object.Ev (K × Call L n) (Res (BitVec n)))) (s) (hx : Runs ((code L n).sys K) m h s) :
    LinearizableTo (spec.many (K := K)) m h s.mem :=
  Stmt.linearizable (prog_pending hn) hx

/-- What an execution looks like. -/
inductive Shape : Op n → MemOrd → List Ev → Res (BitVec n) → Prop where
  | panic {op o} : Shape op o [] .panic
  | load {o r a b} (h : b = none ∧ (o = .relaxed ∨ o = .acquire) ∨ b = some .rwRw)
      (h' : a = none ∧ o = .relaxed ∨ a = some .rRw) :
      Shape .load o (lineEv b ++ (.acc true false false false :: lineEv a)) r
  | store {v o r a b} (h : b = none ∧ o = .relaxed ∨ b = some .rwW)
      (h' : a = none ∧ (o = .relaxed ∨ o = .release) ∨ a = some .rwRw) :
      Shape (.store v) o (lineEv b ++ (.acc false true false false :: lineEv a)) r
  | amo {op o r} (h : op ≠ .load ∧ ∀ v, op ≠ .store v) : Shape op o (subWordEvents o) r

theorem shape (c : Call L n) {t : List Ev} {r : Res (BitVec n)} (h : c.Events t r) : Shape c.op c.ord t r := by
  obtain ⟨op, o, sg, up⟩ := c
  cases op with
  | load =>
    cases o
    case release | acqRel => cases h; exact .panic
    all_goals
      simp only [Call.Events, prog, load, MemOrd.assertLoad] at h
      obtain ⟨e, x, x', v, he, -, -, ht⟩ := events_around (i := .load) h
      obtain rfl : e = [.acc true false false false] := he
      rw [ht]
      refine .load ?_ ?_ <;> simp
  | store w =>
    cases o
    case acquire | acqRel => cases h; exact .panic
    all_goals
      simp only [Call.Events, prog, store, MemOrd.assertStore] at h
      obtain ⟨e, x, x', v, he, -, -, ht⟩ := events_around (i := .store _) (g := fun r => r) h
      obtain rfl : e = [.acc false true false false] := he
      rw [ht]
      refine .store ?_ ?_ <;> simp
  | _ => rw [events_amo h]; exact .amo ⟨by simp, by simp⟩

/-- Of a load: whatever it ends with. -/
theorem load_one (b a : Option Fence) : ∃ i, One (lineEv b ++ (Rv64.Ev.acc true false false false :: lineEv a)) true false false false i := by
  cases b with
  | none => exact ⟨0, one_post _ _ _ _ _ rfl a⟩
  | some f => exact ⟨1, one_pre f _ _ _ _ _ rfl a⟩

/-- **C49b.** An operation whose ordering asks for acquire is an acquire operation: its read is ordered
before everything after it. -/
theorem riscv_acquire (c : Call L n) (t : List Ev) (r : Res (BitVec n)) (h : c.Events t r) (hp : r ≠ .panic)
    (ha : AsksAcquire c.meant c.ord .relaxed r) : IsAcquire t := by
  have hs := shape c h
  clear h
  obtain ⟨op, o, sg, up⟩ := c
  simp only at hs
  cases hs with
  | panic => exact absurd rfl hp
  | load hb h =>
    rcases h with ⟨-, rfl⟩ | rfl
    · rcases ha with h | h | h <;> cases h
    · rcases hb with ⟨rfl, -⟩ | rfl
      · exact (one_post _ _ _ _ _ rfl _).acquire (Or.inr ⟨true, false, 1, ⟨_, _, _, _, rfl, Or.inl ⟨rfl, rfl⟩⟩, by omega, rfl⟩)
      · have h1 := one_pre .rwRw _ true false false false rfl (some .rRw)
        exact h1.acquire (Or.inr ⟨true, false, 2, ⟨_, _, _, _, rfl, Or.inl ⟨rfl, rfl⟩⟩, by omega, rfl⟩)
  | store => exact absurd ha id
  | amo h =>
    refine (one_single _ _ _ _).acquire (Or.inl ⟨true, true, (amoSuffix o).2, ?_⟩)
    have : Acquiring o := by
      cases op <;> first | exact ha | exact absurd rfl h.1 | exact absurd rfl (h.2 _)
    rcases this with rfl | rfl | rfl <;> rfl

/-- **C49c.** One whose ordering asks for release is a release operation: everything before it is ordered
before its write. -/
theorem riscv_release (c : Call L n) (t : List Ev) (r : Res (BitVec n)) (h : c.Events t r)
    (ha : AsksRelease c.meant c.ord) : IsRelease t := by
  have hs := shape c h
  clear h
  obtain ⟨op, o, sg, up⟩ := c
  simp only at hs
  cases hs with
  | panic => intro pre post i j ⟨a, b, c, hj⟩; simp at hj
  | load => exact absurd ha id
  | store h hb =>
    rcases h with ⟨-, rfl⟩ | rfl
    · rcases ha with h | h | h <;> cases h
    · rename_i a
      have h1 := one_pre .rwW _ false true false false rfl a
      exact h1.release (Or.inr ⟨false, true, 0, ⟨_, _, _, _, rfl, Or.inr ⟨rfl, rfl⟩⟩, by omega, rfl⟩)
  | amo h =>
    refine (one_single _ _ _ _).release (Or.inl ⟨true, true, (amoSuffix o).1, ?_⟩)
    have : Releasing o := by
      cases op <;> first | exact ha | exact absurd rfl h.1 | exact absurd rfl (h.2 _)
    rcases this with rfl | rfl | rfl <;> rfl

/-- **C49d.** A sequentially consistent operation is kept in order with every later operation of the
thread, a store followed by a load included; and everything before it is ordered before its access. -/
theorem riscv_seqCst (c : Call L n) (t : List Ev) (r : Res (BitVec n)) (h : c.Events t r) (hp : r ≠ .panic)
    (ha : c.ord = .seqCst) : (∀ u, KeptInOrder t u) ∧ AfterEverything t := by
  have hs := shape c h
  clear h
  obtain ⟨op, o, sg, up⟩ := c
  simp only at hs ha
  subst ha
  cases hs with
  | panic => exact absurd rfl hp
  | load hb h =>
    rcases h with ⟨-, h⟩ | rfl
    · cases h
    rcases hb with ⟨-, h | h⟩ | rfl
    · cases h
    · cases h
    have h1 := one_pre .rwRw _ true false false false rfl (some .rRw)
    exact ⟨fun u => h1.kept (Or.inr ⟨true, false, 2, ⟨_, _, _, _, rfl, Or.inl ⟨rfl, rfl⟩⟩, by omega, rfl⟩),
      h1.after ⟨_, _, _, _, rfl, Or.inl ⟨rfl, rfl⟩⟩
        (Or.inr ⟨true, true, 0, ⟨_, _, _, _, rfl, Or.inl ⟨rfl, rfl⟩⟩, by omega, rfl⟩)⟩
  | store h hb =>
    rcases h with ⟨-, h⟩ | rfl
    · cases h
    rcases hb with ⟨-, h | h⟩ | rfl
    · cases h
    · cases h
    have h1 := one_pre .rwW _ false true false false rfl (some .rwRw)
    exact ⟨fun u => h1.kept (Or.inr ⟨true, true, 2, ⟨_, _, _, _, rfl, Or.inr ⟨rfl, rfl⟩⟩, by omega, rfl⟩),
      h1.after ⟨_, _, _, _, rfl, Or.inr ⟨rfl, rfl⟩⟩
        (Or.inr ⟨false, true, 0, ⟨_, _, _, _, rfl, Or.inr ⟨rfl, rfl⟩⟩, by omega, rfl⟩)⟩
  | amo h =>
    have h1 := one_single true true true true
    exact ⟨fun u => h1.kept (Or.inl ⟨true, true, true, rfl⟩),
      h1.after ⟨_, _, _, _, rfl, Or.inr ⟨rfl, rfl⟩⟩ (Or.inl ⟨true, true, true, rfl⟩)⟩

/-- **C49e.** The same for the 8- and 16-bit operations that use a 32-bit AMO (values: C14). -/
theorem riscv_subWord_order (o : MemOrd) :
    (Acquiring o → IsAcquire (subWordEvents o)) ∧ (Releasing o → IsRelease (subWordEvents o)) ∧
    (o = .seqCst → (∀ u, KeptInOrder (subWordEvents o) u) ∧ AfterEverything (subWordEvents o)) := by
  refine ⟨fun h => ?_, fun h => ?_, fun h => ?_⟩
  · refine (one_single _ _ _ _).acquire (Or.inl ⟨true, true, (amoSuffix o).2, ?_⟩)
    rcases h with rfl | rfl | rfl <;> rfl
  · refine (one_single _ _ _ _).release (Or.inl ⟨true, true, (amoSuffix o).1, ?_⟩)
    rcases h with rfl | rfl | rfl <;> rfl
  · subst h
    have h1 := one_single true true true true
    exact ⟨fun u => h1.kept (Or.inl ⟨true, true, true, rfl⟩),
      h1.after ⟨_, _, _, _, rfl, Or.inr ⟨rfl, rfl⟩⟩ (Or.inl ⟨true, true, true, rfl⟩)⟩

/-! ## Concrete cases -/

/-- A `SeqCst` load of a byte that finds 200. -/
example : (⟨.load, .seqCst, false, 0xdead⟩ : Call 64 8).Events
    [.fence true true true true, .acc true false false false, .fence true false true true] (.val 200) := by
  show Stmt.Events Ins.acc Fence.events Ins.Events (prog (⟨.load, .seqCst, false, 0xdead⟩ : Call 64 8))
    (Fence.rwRw.events ++ ([.acc true false false false] ++ (Fence.rRw.events ++ []))) (out 64 (.val 200))
  exact .fence (.acc (x := 200) (x' := 200) (v := .val 200) (by simp [Ins.acc, Acc.sem, Verif.Op.onCell, Verif.Op.ordOk]) rfl
    (.fence (.ret _)))

/-- A run: signed `fetch_max` of a byte with dirt above the operand, `fetch_sub`, `fetch_not`, and a panic. -/
example : ((code 64 8).outcome
    [.call 0 () ⟨.fetchMax 5, .relaxed, true, 0xff⟩, .call 1 () ⟨.fetchSub 7, .seqCst, false, 3⟩, .go 0, .go 1, .ret 1, .ret 0,
     .call 0 () ⟨.fetchNot, .release, false, 0⟩, .go 0, .ret 0,
     .call 0 () ⟨.store 9, .acquire, false, 0⟩, .go 0, .ret 0] (fun _ => 0x80) ()) =
    some ([(1, .val 5), (0, .val 0x80), (0, .val 0xfe), (0, .panic)], 1) := by
  decide +kernel

end Verif.Riscv
