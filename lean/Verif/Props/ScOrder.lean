import Verif.WM.ScStep
import Verif.Props.WeakMemory
/-!
# `SeqCst` objects are plain cells, in weak memory (C56)

`history P h` (`Spec/ScOrder.lean`) is what happens to the objects of `P` in the history `h` of a
weak-memory run: the calls on these objects and their returns, in real time.  If every operation on
them is `SeqCst`, that history is one of plain cells acted on by indivisible operations
(`Atomic.Linearizable`): one total order over all these objects, respecting the order of calls in
each thread and real time between threads.  The other objects, and the threads' own variables and
fences, are used with any orderings and cannot disturb this.
-/
set_option autoImplicit false
set_option linter.unusedSectionVars false
namespace Verif.WM
open Verif.Fallback

variable {V X : Type} [DecidableEq V] {c : Cfg V} {v0 : Obj → V} {x0 : Nat → X} {h : List (Ev V X)}
  {P : Obj → Bool}

/-- **C56.**  Native atomics. -/
theorem native_sc_linearizable (hb : Native.Behaviour v0 x0 h) (hq : AllSeqCst P h) :
    Atomic.Linearizable v0 (history P h) :=
  Sc.native_linearizable hb hq

/-- **C56.**  The lock-based atomics. -/
theorem fallback_sc_linearizable (ok : c.Sound) (hv : ∀ o, c.fits o (v0 o)) (hx : Lock.Behaviour c v0 x0 h)
    (hb : Lock.calls h < c.maxOverlap)
    (hq : AllSeqCst P h) : Atomic.Linearizable v0 (history P h) :=
  Sc.native_linearizable (fallback_refines_native ok hv hx hb) hq

theorem u128_narrow_sc_linearizable (be : Bool) (addr : Obj → Nat) {v0 : Obj → BitVec 128}
    {h : List (Ev (BitVec 128) X)} (hx : Lock.Behaviour (u128Narrow be addr) v0 x0 h)
    (hb : Lock.calls h < 2 ^ 63) (hq : AllSeqCst P h) : Atomic.Linearizable v0 (history P h) :=
  Sc.native_linearizable (u128_narrow_refines_native be addr hx hb) hq

theorem u128_wide_sc_linearizable (be : Bool) (addr : Obj → Nat) {v0 : Obj → BitVec 128}
    {h : List (Ev (BitVec 128) X)} (hx : Lock.Behaviour (u128Wide be addr) v0 x0 h)
    (hb : Lock.calls h < 2 ^ 63 - 2 ^ 31) (hq : AllSeqCst P h) : Atomic.Linearizable v0 (history P h) :=
  Sc.native_linearizable (u128_wide_refines_native be addr hx hb) hq

theorem u64_wide_sc_linearizable (be : Bool) (addr : Obj → Nat) {v0 : Obj → BitVec 64}
    {h : List (Ev (BitVec 64) X)} (hx : Lock.Behaviour (u64Wide be addr) v0 x0 h)
    (hb : Lock.calls h < 2 ^ 63 - 2 ^ 31) (hq : AllSeqCst P h) : Atomic.Linearizable v0 (history P h) :=
  Sc.native_linearizable (u64_wide_refines_native be addr hx hb) hq

/-! ## The hypotheses are met, and are needed -/

namespace WmDemo
open Lock (Cmd)

/-- Store buffering between objects 0 and 1 with `SeqCst`, while thread 2 works on object 2 with weak
orderings and on a variable of its own: `P` is the first two objects. -/
def sbMixed : List (Cmd (BitVec 128) Nat) :=
  [.call 2 2 (.store 8 .release), .call 0 0 (.store 1 .seqCst), .store 3 0 7 .relaxed,
   .call 1 1 (.store 1 .seqCst)] ++
  List.replicate 7 (.go 0 0) ++ List.replicate 7 (.go 1 0) ++ List.replicate 5 (.go 2 0) ++
  [.ret 0 .unit, .ret 1 .unit, .ret 2 .unit,
   .call 0 1 (.load .seqCst), .call 1 0 (.load .seqCst)] ++
  List.replicate 7 (.go 0 0) ++ List.replicate 7 (.go 1 0) ++ [.ret 0 (.val 1), .ret 1 (.val 1)]

theorem sbMixed_runs : (Lock.run s0 sbMixed).isSome = true := by decide +kernel

def two (o : Obj) : Bool := o == 0 || o == 1

theorem sbMixed_history : history two (sbMixed.filterMap Cmd.ev) =
    [.inv 0 0 (.store 1 .seqCst), .inv 1 1 (.store 1 .seqCst), .ret 0 .unit, .ret 1 .unit,
     .inv 0 1 (.load .seqCst), .inv 1 0 (.load .seqCst), .ret 0 (.val 1), .ret 1 (.val 1)] := rfl

theorem sbMixed_seqCst : AllSeqCst two (sbMixed.filterMap Cmd.ev) := by
  intro t o op hm hP
  have e : sbMixed.filterMap Cmd.ev = [.inv 2 2 (.store 8 .release), .inv 0 0 (.store 1 .seqCst),
    .client 3 (.store 0 7 .relaxed) none, .inv 1 1 (.store 1 .seqCst), .ret 0 .unit, .ret 1 .unit, .ret 2 .unit,
    .inv 0 1 (.load .seqCst), .inv 1 0 (.load .seqCst), .ret 0 (.val 1), .ret 1 (.val 1)] := rfl
  rw [e] at hm
  simp only [List.mem_cons, Ev.inv.injEq, reduceCtorEq, List.not_mem_nil, false_or, or_false] at hm
  rcases hm with ⟨-, rfl, rfl⟩ | ⟨-, rfl, rfl⟩ | ⟨-, rfl, rfl⟩ | ⟨-, rfl, rfl⟩ | ⟨-, rfl, rfl⟩
  · cases hP
  all_goals rfl

/-- The hypotheses of `fallback_sc_linearizable` hold of this run. -/
example : Atomic.Linearizable (fun _ => (5 : BitVec 128))
    [.inv 0 0 (.store 1 .seqCst), .inv 1 1 (.store 1 .seqCst), .ret 0 .unit, .ret 1 .unit,
     .inv 0 1 (.load .seqCst), .inv 1 0 (.load .seqCst), .ret 0 (.val 1), .ret 1 (.val 1)] := by
  rw [← sbMixed_history]
  exact fallback_sc_linearizable ok.toSound (fun _ => trivial) (behaviour sbMixed_runs) (small (by decide)) sbMixed_seqCst

/-- The history of the release/acquire run `stale`. -/
theorem stale_history : history (fun _ => true) (stale.filterMap Cmd.ev) =
    [.inv 0 0 (.store (2 ^ 64 + 9) .release), .ret 0 .unit, .inv 1 0 (.load .acquire), .ret 1 (.val 5)] := rfl

/-- What the specification can be doing after the first `n` events of the history of `stale`. -/
def At (n : Nat) (s : Atomic.State (BitVec 128)) : Prop :=
  (∀ t, 1 < t → s.th t = .idle) ∧
  match n with
  | 0 => s.cell 0 = 5 ∧ s.th 0 = .idle ∧ s.th 1 = .idle
  | 1 => (s.th 0 = .pending 0 (.store (2 ^ 64 + 9) .release) ∨ s.cell 0 = 2 ^ 64 + 9 ∧ s.th 0 = .done .unit) ∧
      s.th 1 = .idle
  | 2 => s.cell 0 = 2 ^ 64 + 9 ∧ s.th 0 = .idle ∧ s.th 1 = .idle
  | 3 => s.cell 0 = 2 ^ 64 + 9 ∧ s.th 0 = .idle ∧
      (s.th 1 = .pending 0 (.load .acquire) ∨ s.th 1 = .done (.val (2 ^ 64 + 9)))
  | _ => False

theorem at_tau {n : Nat} {s s' : Atomic.State (BitVec 128)} (a : At n s) (st : Atomic.Step s none s') : At n s' := by
  obtain ⟨a0, a⟩ := a
  cases st with
  | commit t o op h =>
    have ht : t = 0 ∨ t = 1 := by
      have : ¬ 1 < t := fun ht => by rw [a0 t ht] at h; cases h
      rcases t with _ | _ | t
      · exact .inl rfl
      · exact .inr rfl
      · exact absurd (Nat.succ_lt_succ (Nat.succ_pos t)) this
    refine ⟨fun u hu => ?_, ?_⟩
    · have : u ≠ t := by rintro rfl; rcases ht with rfl | rfl <;> simp at hu
      simp only [Function.update_of_ne this]; exact a0 u hu
    match n, a with
    | 0, ⟨_, e0, e1⟩ => rcases ht with rfl | rfl <;> (first | (rw [e0] at h; cases h) | (rw [e1] at h; cases h))
    | 1, ⟨e0, e1⟩ =>
      rcases ht with rfl | rfl
      · rcases e0 with e0 | ⟨-, e0⟩ <;> rw [e0] at h <;> cases h
        refine ⟨.inr ⟨by simp [Op.onCell, Op.ordOk], by simp [Op.onCell, Op.ordOk]⟩, by
          dsimp only; rw [Function.update_of_ne (by decide)]; exact e1⟩
      · rw [e1] at h; cases h
    | 2, ⟨_, e0, e1⟩ => rcases ht with rfl | rfl <;> (first | (rw [e0] at h; cases h) | (rw [e1] at h; cases h))
    | 3, ⟨ec, e0, e1⟩ =>
      rcases ht with rfl | rfl
      · rw [e0] at h; cases h
      · rcases e1 with e1 | e1 <;> rw [e1] at h <;> cases h
        refine ⟨by simpa [Op.onCell, Op.ordOk] using ec, by dsimp only; rw [Function.update_of_ne (by decide)]; exact e0, .inr ?_⟩
        simpa [Op.onCell, Op.ordOk] using ec
    | _ + 4, a => exact a

theorem at_ev {n : Nat} {s s' : Atomic.State (BitVec 128)} {e : Verif.Ev (BitVec 128)} (a : At n s)
    (he : (history (fun _ => true) (stale.filterMap Cmd.ev))[n]? = some e) (st : Atomic.Step s (some e) s') :
    At (n + 1) s' := by
  obtain ⟨a0, a⟩ := a
  rw [stale_history] at he
  match n, a with
  | 0, ⟨_, e0, e1⟩ =>
    cases he; cases st
    refine ⟨fun u hu => ?_, .inl (by simp), ?_⟩
    · dsimp only; rw [Function.update_of_ne (by rintro rfl; cases hu)]; exact a0 u hu
    · dsimp only; rw [Function.update_of_ne (by decide)]; exact e1
  | 1, ⟨e0, e1⟩ =>
    cases he; cases st with
    | ret _ _ h =>
    rcases e0 with e0 | ⟨ec, e0⟩
    · rw [e0] at h; cases h
    · refine ⟨fun u hu => ?_, ec, by simp, ?_⟩
      · dsimp only; rw [Function.update_of_ne (by rintro rfl; cases hu)]; exact a0 u hu
      · dsimp only; rw [Function.update_of_ne (by decide)]; exact e1
  | 2, ⟨ec, e0, e1⟩ =>
    cases he; cases st
    refine ⟨fun u hu => ?_, ec, ?_, .inl (by simp)⟩
    · dsimp only; rw [Function.update_of_ne (by rintro rfl; simp at hu)]; exact a0 u hu
    · dsimp only; rw [Function.update_of_ne (by decide)]; exact e0
  | 3, ⟨ec, e0, e1⟩ =>
    cases he; cases st with
    | ret _ _ h =>
    rcases e1 with e1 | e1 <;> rw [e1] at h
    · cases h
    · injection h with h; injection h with h; exact absurd h (by decide +kernel)
  | _ + 4, a => exact a.elim

/-- With acquire and release only, the history of a run of the lock-based code need not be linearizable:
the hypothesis of C56 is needed. -/
theorem stale_not_linearizable : ¬ Atomic.Linearizable (fun _ => (5 : BitVec 128))
    (history (fun _ => true) (stale.filterMap Cmd.ev)) := by
  rintro ⟨s, x⟩
  have key : ∀ {h : List (Verif.Ev (BitVec 128))} {s : Atomic.State (BitVec 128)},
      Exec Atomic.Step (Atomic.init fun _ => 5) h s →
      h <+: history (fun _ => true) (stale.filterMap Cmd.ev) → At h.length s := by
    intro h s x hp
    induction x with
    | refl => exact ⟨fun _ _ => rfl, rfl, rfl, rfl⟩
    | tau _ st ih => exact at_tau (ih hp) st
    | @ev h s e s' _ st ih =>
      obtain ⟨k, hk⟩ := hp
      rw [List.length_append]
      refine at_ev (ih ⟨[e] ++ k, by rw [← List.append_assoc]; exact hk⟩) ?_ st
      rw [← hk]
      simp
  exact (key x (List.prefix_refl _)).2

end WmDemo
end Verif.WM
